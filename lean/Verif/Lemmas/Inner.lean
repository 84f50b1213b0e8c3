import Verif.Lemmas.InnerPlan
import Verif.Lemmas.TensorizeMats
import Mathlib.Algebra.BigOperators.Ring.List

/-! # Contraction -/

namespace Hermipy

open Spec

variable {α : Type}

theorem map_set_idxOf {dirs : IVec} (hn : dirs.Nodup) {β : Type} (g : Nat → β) {x : Nat} (v : β) :
    (dirs.map g).set (dirs.idxOf x) v = dirs.map (fun y => if y = x then v else g y) := by
  apply List.ext_getElem
  · simp
  · intro i h1 h2
    have hi : i < dirs.length := by simpa using h2
    simp only [List.getElem_map]
    by_cases h : dirs.idxOf x = i
    · subst h
      rw [List.getElem_set_self, if_pos]
      exact List.getElem_idxOf hi
    · rw [List.getElem_set_ne h, List.getElem_map, if_neg]
      intro hc
      apply h
      rw [← hc]
      exact hn.idxOf_getElem i hi

theorem wr_map {dirs : IVec} (hn : dirs.Nodup) {β : Type} (g : Nat → β) {x : Nat} (hx : x ∈ dirs) (v : β) :
    wr (dirs.map g) (dirs.idxOf x) v = .ok (dirs.map (fun y => if y = x then v else g y)) := by
  rw [wr_of_lt (by simpa using List.idxOf_lt_length_of_mem hx), map_set_idxOf hn]

theorem map_not_mem {dirs : IVec} {β : Type} {g g' : Nat → β} (h : ∀ y ∈ dirs, g y = g' y) : dirs.map g = dirs.map g' :=
  List.map_congr_left h

theorem fillFree_ok {dirs1 dirs2 m : IVec} {p : InnerPlan} (hp : PlanOk 0 0 dirs1 dirs2 p) (hi1 : Inc dirs1)
    (hi2 : Inc dirs2) (hm : m.length = p.dirs_result.length) (g1 g2 : Nat → Nat) :
    fillFree p m (dirs1.map g1, dirs2.map g2) =
      .ok (dirs1.map (fun x => if x ∈ p.dirs_result then at' p.dirs_result m x else g1 x),
        dirs2.map (fun x => if x ∈ p.dirs_result then at' p.dirs_result m x else g2 x)) := by
  obtain ⟨ms, e, h⟩ := forRange_inv (n := p.dirs_result.length) (acc := (dirs1.map g1, dirs2.map g2))
    (body := fun k ms => do
      let b ← rd p.in_dirs1 k
      let f ← rd p.free_ind k
      let x ← rd m k
      if b then do
        let m1 ← wr ms.1 f x
        .ok (m1, ms.2)
      else do
        let m2 ← wr ms.2 f x
        .ok (ms.1, m2))
    (fun k ms => ms = (dirs1.map (fun x => if x ∈ p.dirs_result.take k then at' p.dirs_result m x else g1 x),
        dirs2.map (fun x => if x ∈ p.dirs_result.take k then at' p.dirs_result m x else g2 x)))
    (by simp)
    (by
      intro k ms hk hms
      subst hms
      obtain ⟨x, hx⟩ : ∃ x, x = p.dirs_result[k] := ⟨_, rfl⟩
      have hxm : x ∈ p.dirs_result := hx ▸ List.getElem_mem hk
      have hat : m[k]'(by omega) = at' p.dirs_result m x := by
        rw [hx, at'_of_getElem hp.incD.nodup hk hm]
      have htake : ∀ y, y ∈ p.dirs_result.take (k + 1) ↔ y = x ∨ y ∈ p.dirs_result.take k := by
        intro y
        rw [List.take_succ_eq_append_getElem hk, List.mem_append, List.mem_singleton, ← hx]
        exact Or.comm
      have r1 : rd p.in_dirs1 k = .ok (decide (x ∈ dirs1)) := by
        rw [hp.side, rd_of_lt (by simpa using hk), List.getElem_map, ← hx]
      have r2 : rd p.free_ind k = .ok (if x ∈ dirs1 then dirs1.idxOf x else dirs2.idxOf x) := by
        rw [hp.free, rd_of_lt (by simpa using hk), List.getElem_map, ← hx]
        simp only [Nat.zero_add]
      have r3 : rd m k = .ok (at' p.dirs_result m x) := by rw [rd_of_lt (by omega), hat]
      refine ⟨_, ?_, rfl⟩
      rw [r1, r2, r3]
      simp only [Out.ok_bind]
      have hupd : ∀ (dirs : IVec) (g : Nat → Nat),
          dirs.map (fun y => if y = x then at' p.dirs_result m x else
            if y ∈ p.dirs_result.take k then at' p.dirs_result m y else g y) =
          dirs.map (fun y => if y ∈ p.dirs_result.take (k + 1) then at' p.dirs_result m y else g y) := by
        intro dirs g
        apply List.map_congr_left
        intro y _
        by_cases hyx : y = x
        · subst hyx
          rw [if_pos rfl, if_pos ((htake y).2 (Or.inl rfl))]
        · rw [if_neg hyx]
          by_cases hyt : y ∈ p.dirs_result.take k
          · rw [if_pos hyt, if_pos ((htake y).2 (Or.inr hyt))]
          · rw [if_neg hyt, if_neg (fun h => ((htake y).1 h).elim hyx hyt)]
      have hsame : ∀ (dirs : IVec) (g : Nat → Nat), x ∉ dirs →
          dirs.map (fun y => if y ∈ p.dirs_result.take k then at' p.dirs_result m y else g y) =
          dirs.map (fun y => if y ∈ p.dirs_result.take (k + 1) then at' p.dirs_result m y else g y) := by
        intro dirs g hxd
        apply List.map_congr_left
        intro y hy
        have hyx : y ≠ x := fun h => hxd (h ▸ hy)
        by_cases hyt : y ∈ p.dirs_result.take k
        · rw [if_pos hyt, if_pos ((htake y).2 (Or.inr hyt))]
        · rw [if_neg hyt, if_neg (fun h => ((htake y).1 h).elim hyx hyt)]
      by_cases h1 : x ∈ dirs1
      · have h2 : x ∉ dirs2 := by
          rcases (hp.memD x).1 hxm with h | h
          · exact h.2
          · exact absurd h1 h.2
        simp only [h1, decide_true, if_true]
        rw [wr_map hi1.nodup _ h1]
        simp only [Out.ok_bind]
        rw [hupd, hsame dirs2 g2 h2]
      · have h2 : x ∈ dirs2 := by
          rcases (hp.memD x).1 hxm with h | h
          · exact absurd h.1 h1
          · exact h.1
        simp only [h1, decide_false, if_false, Bool.false_eq_true]
        rw [wr_map hi2.nodup _ h2]
        simp only [Out.ok_bind]
        rw [hupd, hsame dirs1 g1 h1])
  rw [List.take_length] at h
  rw [fillFree, e, h]

theorem fillInner_ok {dirs1 dirs2 k : IVec} {p : InnerPlan} (hp : PlanOk 0 0 dirs1 dirs2 p) (hi1 : Inc dirs1)
    (hi2 : Inc dirs2) (hm : k.length = p.dirs_inner.length) (g1 g2 : Nat → Nat) :
    fillInner p k (dirs1.map g1, dirs2.map g2) =
      .ok (dirs1.map (fun x => if x ∈ p.dirs_inner then at' p.dirs_inner k x else g1 x),
        dirs2.map (fun x => if x ∈ p.dirs_inner then at' p.dirs_inner k x else g2 x)) := by
  obtain ⟨ms, e, h⟩ := forRange_inv (n := p.dirs_inner.length) (acc := (dirs1.map g1, dirs2.map g2))
    (body := fun t ms => do
      let i1 ← rd p.inner_ind1 t
      let i2 ← rd p.inner_ind2 t
      let x ← rd k t
      let m1 ← wr ms.1 i1 x
      let m2 ← wr ms.2 i2 x
      .ok (m1, m2))
    (fun t ms => ms = (dirs1.map (fun x => if x ∈ p.dirs_inner.take t then at' p.dirs_inner k x else g1 x),
        dirs2.map (fun x => if x ∈ p.dirs_inner.take t then at' p.dirs_inner k x else g2 x)))
    (by simp)
    (by
      intro t ms ht hms
      subst hms
      obtain ⟨x, hx⟩ : ∃ x, x = p.dirs_inner[t] := ⟨_, rfl⟩
      have hxm : x ∈ p.dirs_inner := hx ▸ List.getElem_mem ht
      have hat : k[t]'(by omega) = at' p.dirs_inner k x := by
        rw [hx, at'_of_getElem hp.incK.nodup ht hm]
      have htake : ∀ y, y ∈ p.dirs_inner.take (t + 1) ↔ y = x ∨ y ∈ p.dirs_inner.take t := by
        intro y
        rw [List.take_succ_eq_append_getElem ht, List.mem_append, List.mem_singleton, ← hx]
        exact Or.comm
      have r1 : rd p.inner_ind1 t = .ok (dirs1.idxOf x) := by
        rw [hp.ind1, rd_of_lt (by simpa using ht), List.getElem_map, ← hx, Nat.zero_add]
      have r2 : rd p.inner_ind2 t = .ok (dirs2.idxOf x) := by
        rw [hp.ind2, rd_of_lt (by simpa using ht), List.getElem_map, ← hx, Nat.zero_add]
      have r3 : rd k t = .ok (at' p.dirs_inner k x) := by rw [rd_of_lt (by omega), hat]
      refine ⟨_, ?_, rfl⟩
      rw [r1, r2, r3]
      simp only [Out.ok_bind]
      have hupd : ∀ (dirs : IVec) (g : Nat → Nat),
          dirs.map (fun y => if y = x then at' p.dirs_inner k x else
            if y ∈ p.dirs_inner.take t then at' p.dirs_inner k y else g y) =
          dirs.map (fun y => if y ∈ p.dirs_inner.take (t + 1) then at' p.dirs_inner k y else g y) := by
        intro dirs g
        apply List.map_congr_left
        intro y _
        by_cases hyx : y = x
        · subst hyx
          rw [if_pos rfl, if_pos ((htake y).2 (Or.inl rfl))]
        · rw [if_neg hyx]
          by_cases hyt : y ∈ p.dirs_inner.take t
          · rw [if_pos hyt, if_pos ((htake y).2 (Or.inr hyt))]
          · rw [if_neg hyt, if_neg (fun h => ((htake y).1 h).elim hyx hyt)]
      have hmem := (hp.memK x).1 hxm
      rw [wr_map hi1.nodup _ hmem.1, wr_map hi2.nodup _ hmem.2]
      simp only [Out.ok_bind]
      rw [hupd, hupd])
  rw [List.take_length] at h
  rw [fillInner, e, h]

theorem zeros_eq (dirs : IVec) : List.replicate dirs.length 0 = dirs.map (fun _ => 0) := by simp

/-- Reading a coefficient through the iterator. -/
theorem read_coef [Zero α] {s : IndexSet} {dim degree : Nat} {L : List IVec} (hL : IterOk s dim degree L) {v : List α}
    (hv : v.length = L.length) {m : IVec} (hm : InSet s dim degree m) :
    ∃ i, (freshIter dim L).index m = .ok i ∧ rd v i = .ok (coef L v m) := by
  have hlt := List.idxOf_lt_length_of_mem ((hL.mem _).2 hm)
  refine ⟨_, hL.index_of_mem hm, ?_⟩
  rw [rd_of_lt (by omega), coef, List.getD_eq_getElem?_getD, List.getElem?_eq_getElem (by omega)]
  rfl

theorem joint_along_left {D m K k dirs : IVec} (hs : ∀ x ∈ dirs, x ∈ D) : dirs.map (joint D m K k) = along D dirs m := by
  apply List.map_congr_left
  intro x hx
  rw [joint, if_pos (hs x hx)]

theorem joint_along_right {D m K k dirs : IVec} (hs : ∀ x ∈ dirs, x ∉ D) : dirs.map (joint D m K k) = along K dirs k := by
  apply List.map_congr_left
  intro x hx
  rw [joint, if_neg (hs x hx)]

theorem Inc.eq_of_mem {l l' : IVec} (h : Inc l) (h' : Inc l') (hm : ∀ x, x ∈ l ↔ x ∈ l') : l = l' :=
  h.eq_of_perm h' ((List.perm_ext_iff_of_nodup h.nodup h'.nodup).2 hm)

/-- The terms of the contraction. -/
def term [Mul α] [Zero α] (L1 L2 : List IVec) (s1 s2 : List α) (dirs1 dirs2 D m K k : IVec) : α :=
  coef L1 s1 (dirs1.map (joint D m K k)) * coef L2 s2 (dirs2.map (joint D m K k))

theorem sum_take_succ {β : Type} [AddMonoid β] {τ : Type} (l : List τ) (g : τ → β) {i : Nat} {x : τ} (h : l[i]? = some x) :
    ((l.take (i + 1)).map g).sum = ((l.take i).map g).sum + g x := by
  obtain ⟨hi, rfl⟩ := List.getElem?_eq_some_iff.1 h
  rw [List.take_succ_eq_append_getElem hi, List.map_append, List.sum_append]
  simp

theorem foldl_take_succ {β τ : Type} (l : List τ) (g : β → τ → β) (b : β) {i : Nat} {x : τ} (h : l[i]? = some x) :
    (l.take (i + 1)).foldl g b = g ((l.take i).foldl g b) x := by
  obtain ⟨hi, rfl⟩ := List.getElem?_eq_some_iff.1 h
  rw [List.take_succ_eq_append_getElem hi, List.foldl_append]
  rfl

/-- One addition of the contraction: the multi-indices outside of the sets are left out. -/
def addTerm [Mul α] [Add α] [Zero α] (L1 L2 : List IVec) (s1 s2 : List α) (dirs1 dirs2 D m K : IVec) (acc : α) (k : IVec) : α :=
  if dirs1.map (joint D m K k) ∈ L1 ∧ dirs2.map (joint D m K k) ∈ L2 then acc + term L1 L2 s1 s2 dirs1 dirs2 D m K k else acc

/-- The entries in the order of the additions, for any operations. -/
theorem inner_fold [Mul α] [Add α] [Zero α] {s : IndexSet} {degree : Nat} {dirs1 dirs2 D K : IVec}
    (hu : Usable s dirs1.length degree) (hz2 : Sized s dirs2.length degree) (hi1 : Inc dirs1) (hi2 : Inc dirs2)
    (hsf : SharedFree dirs1 dirs2 D K) (hzD : D ≠ [] → Sized s D.length degree) {L1 L2 LD LK : List IVec}
    (hL1 : IterOk s dirs1.length degree L1) (hL2 : IterOk s dirs2.length degree L2) (hLD : Listing s degree D LD)
    (hLK : Listing s degree K LK) {s1 s2 : List α} (hs1 : s1.length = L1.length) (hs2 : s2.length = L2.length) :
    ∃ r, inner s s1 s2 dirs1 dirs2 = .ok r ∧ r.length = LD.length ∧
      ∀ (i : Nat) (m : IVec), LD[i]? = some m →
        r[i]? = some (if K = [] then term L1 L2 s1 s2 dirs1 dirs2 D m [] []
          else LK.foldl (addTerm L1 L2 s1 s2 dirs1 dirs2 D m K) 0) := by
  have hp := innerPlan_ok _ 0 0 dirs1 dirs2 le_rfl hi1 hi2
  have eD : (innerPlan 0 0 dirs1 dirs2).dirs_result = D :=
    Inc.eq_of_mem hp.incD hsf.incD (fun x => by rw [hp.memD, hsf.memD])
  have eK : (innerPlan 0 0 dirs1 dirs2).dirs_inner = K :=
    Inc.eq_of_mem hp.incK hsf.incK (fun x => by rw [hp.memK, hsf.memK])
  have hne1 : dirs1 ≠ [] := by
    have := hu.toSized.dim_pos
    rintro rfl
    simp at this
  have hne2 : dirs2 ≠ [] := by
    have := hz2.dim_pos
    rintro rfl
    simp at this
  have hcov1 : ∀ x ∈ dirs1, x ∈ D ∨ x ∈ K := by
    intro x hx
    by_cases h2 : x ∈ dirs2
    · exact Or.inr ((hsf.memK x).2 ⟨hx, h2⟩)
    · exact Or.inl ((hsf.memD x).2 (Or.inl ⟨hx, h2⟩))
  have hcov2 : ∀ x ∈ dirs2, x ∈ D ∨ x ∈ K := by
    intro x hx
    by_cases h2 : x ∈ dirs1
    · exact Or.inr ((hsf.memK x).2 ⟨h2, hx⟩)
    · exact Or.inl ((hsf.memD x).2 (Or.inr ⟨hx, h2⟩))
  have hDK : ∀ x ∈ K, x ∉ D := by
    intro x hx hd
    have := (hsf.memK x).1 hx
    rcases (hsf.memD x).1 hd with h | h
    · exact h.2 this.2
    · exact h.2 this.1
  obtain ⟨d, hdeg, hsame⟩ := hu.degree hL1
  obtain ⟨L1', hA1, hA2, -, -⟩ := hu.toSized.open hsame
  obtain rfl := hL1.unique hA1
  obtain ⟨L2', hB1, hB2, -, -⟩ := hz2.open hsame
  obtain rfl := hL2.unique hB1
  have hKle : K.length ≤ dirs1.length := by
    exact ((hsf.incK : Inc K).nodup.subperm (fun x hx => ((hsf.memK x).1 hx).1)).length_le
  have hKin : ∀ x ∈ K, x ∈ dirs1 := fun x hx => ((hsf.memK x).1 hx).1
  simp only [inner, eD, eK, hs1, hdeg, Out.ok_bind, hA2.iter, hB2.iter]
  by_cases hK : K.length = 0
  · -- no shared direction
    rw [if_pos hK]
    obtain rfl : K = [] := List.length_eq_zero_iff.1 hK
    have hD : D ≠ [] := by
      rintro rfl
      obtain ⟨x, hx⟩ := List.exists_mem_of_ne_nil _ hne1
      simpa using hcov1 x hx
    obtain ⟨-, rfl⟩ : ([] : IVec) = [] ∧ LK = [[]] := by simpa [Listing] using hLK
    have hlD : s.s_list D.length degree = .ok LD := by simpa [Listing, hD] using hLD
    obtain ⟨LD', hD1, hD2, hDs, -⟩ := (hzD hD).open hsame
    have := hD1.list
    rw [hlD] at this
    obtain rfl : LD = LD' := by simpa using this
    simp only [hD2.iter, hDs, Out.ok_bind]
    have s1D : ∀ x ∈ dirs1, x ∈ D := fun x hx => by simpa using hcov1 x hx
    have s2D : ∀ x ∈ dirs2, x ∈ D := fun x hx => by simpa using hcov2 x hx
    obtain ⟨r, e, hl, h⟩ := hD2.loop (acc := List.replicate LD.length (0 : α))
      (body := fun i m result => do
        let ms ← fillFree (innerPlan 0 0 dirs1 dirs2) m (List.replicate dirs1.length 0, List.replicate dirs2.length 0)
        let ind1 ← (freshIter dirs1.length L1).index ms.1
        let ind2 ← (freshIter dirs2.length L2).index ms.2
        let x ← rd s1 ind1
        let y ← rd s2 ind2
        wr result i (x * y))
      (fun i r => r.length = LD.length ∧ ∀ (t : Nat) (m : IVec), LD[t]? = some m → t < i →
        r[t]? = some (term L1 L2 s1 s2 dirs1 dirs2 D m [] []))
      ⟨by simp, fun t m _ h => absurd h (Nat.not_lt_zero _)⟩
      (by
        intro i m r hm ⟨hr, hP⟩
        have hin := (hD1.mem m).1 (List.mem_of_getElem? hm)
        have hi : i < LD.length := (List.getElem?_eq_some_iff.1 hm).1
        have e1 : fillFree (innerPlan 0 0 dirs1 dirs2) m (List.replicate dirs1.length 0, List.replicate dirs2.length 0) =
            .ok (along D dirs1 m, along D dirs2 m) := by
          rw [zeros_eq, zeros_eq, fillFree_ok hp hi1 hi2 (by rw [eD]; exact inSet_length hin), eD]
          have : ∀ dirs : IVec, (∀ x ∈ dirs, x ∈ D) → dirs.map (fun x => if x ∈ D then at' D m x else 0) = along D dirs m := by
            intro dirs hs
            apply List.map_congr_left
            intro x hx
            rw [if_pos (hs x hx)]
          rw [this dirs1 s1D, this dirs2 s2D]
        obtain ⟨i1, f1, g1⟩ := read_coef hL1 hs1 (inSet_along hsf.incD hi1 hne1 s1D hin)
        obtain ⟨i2, f2, g2⟩ := read_coef hL2 hs2 (inSet_along hsf.incD hi2 hne2 s2D hin)
        refine ⟨r.set i (term L1 L2 s1 s2 dirs1 dirs2 D m [] []), ?_, by simpa using hr, ?_⟩
        · rw [e1]
          simp only [Out.ok_bind, f1, f2, g1, g2]
          rw [wr_of_lt (by omega), term, joint_along_left s1D, joint_along_left s2D]
        · intro t m' ht hti
          by_cases h : i = t
          · subst h
            rw [hm] at ht
            obtain rfl := Option.some.inj ht
            rw [List.getElem?_set_self (by omega)]
          · rw [List.getElem?_set_ne h]
            exact hP t m' ht (by omega))
    refine ⟨r, e, hl, fun i m hm => ?_⟩
    rw [h i m hm (List.getElem?_eq_some_iff.1 hm).1, if_pos trivial]
  · rw [if_neg hK]
    have hKne : K ≠ [] := fun h => hK (by rw [h]; rfl)
    have hlK : s.s_list K.length degree = .ok LK := by simpa [Listing, hKne] using hLK
    obtain ⟨LK', hK1, hK2, -, -⟩ := (hu.toSized.sub (by omega) hKle).open hsame
    have := hK1.list
    rw [hlK] at this
    obtain rfl : LK = LK' := by simpa using this
    by_cases hD0 : D.length = 0
    · -- no free direction
      rw [if_pos hD0]
      obtain rfl : D = [] := List.length_eq_zero_iff.1 hD0
      obtain ⟨-, rfl⟩ : ([] : IVec) = [] ∧ LD = [[]] := by simpa [Listing] using hLD
      simp only [hK2.iter, Out.ok_bind, freshIter_reset]
      have s1K : ∀ x ∈ dirs1, x ∈ K := fun x hx => by simpa using hcov1 x hx
      have s2K : ∀ x ∈ dirs2, x ∈ K := fun x hx => by simpa using hcov2 x hx
      obtain ⟨r, e, -, h⟩ := hK2.loop (acc := ((List.replicate dirs1.length 0, List.replicate dirs2.length 0), (0 : α)))
        (body := fun _ m st => do
          let ms ← fillInner (innerPlan 0 0 dirs1 dirs2) m st.1
          let ind1 ← (freshIter dirs1.length L1).index ms.1
          let ind2 ← (freshIter dirs2.length L2).index ms.2
          let x ← rd s1 ind1
          let y ← rd s2 ind2
          .ok (ms, st.2 + x * y))
        (fun t st => (∃ g1 g2, st.1 = (dirs1.map g1, dirs2.map g2)) ∧
          st.2 = (LK.take t).foldl (addTerm L1 L2 s1 s2 dirs1 dirs2 [] [] K) 0)
        ⟨⟨_, _, by rw [zeros_eq, zeros_eq]⟩, by simp⟩
        (by
          intro t k st hk ⟨⟨g1, g2, hg⟩, hsum⟩
          have hin := (hK1.mem k).1 (List.mem_of_getElem? hk)
          have e1 : fillInner (innerPlan 0 0 dirs1 dirs2) k st.1 = .ok (along K dirs1 k, along K dirs2 k) := by
            rw [hg, fillInner_ok hp hi1 hi2 (by rw [eK]; exact inSet_length hin), eK]
            have : ∀ (dirs : IVec) (g : Nat → Nat), (∀ x ∈ dirs, x ∈ K) →
                dirs.map (fun x => if x ∈ K then at' K k x else g x) = along K dirs k := by
              intro dirs g hs
              apply List.map_congr_left
              intro x hx
              rw [if_pos (hs x hx)]
            rw [this dirs1 g1 s1K, this dirs2 g2 s2K]
          obtain ⟨i1, f1, q1⟩ := read_coef hL1 hs1 (inSet_along hsf.incK hi1 hne1 s1K hin)
          obtain ⟨i2, f2, q2⟩ := read_coef hL2 hs2 (inSet_along hsf.incK hi2 hne2 s2K hin)
          refine ⟨((along K dirs1 k, along K dirs2 k), st.2 + term L1 L2 s1 s2 dirs1 dirs2 [] [] K k), ?_,
            ⟨at' K k, at' K k, rfl⟩, ?_⟩
          · rw [e1]
            simp only [Out.ok_bind, f1, f2, q1, q2]
            rw [term, joint_along_right (by simp), joint_along_right (by simp)]
          · rw [foldl_take_succ LK _ _ hk, ← hsum, addTerm, if_pos]
            rw [joint_along_right (by simp), joint_along_right (by simp), hL1.mem, hL2.mem]
            exact ⟨inSet_along hsf.incK hi1 hne1 s1K hin, inSet_along hsf.incK hi2 hne2 s2K hin⟩)
      refine ⟨[r.2], by rw [e]; rfl, rfl, fun i m hm => ?_⟩
      obtain ⟨hi, hm⟩ := List.getElem?_eq_some_iff.1 hm
      simp only [List.length_singleton, Nat.lt_one_iff] at hi
      subst hi
      simp only [List.getElem_cons_zero] at hm
      subst hm
      rw [List.take_length] at h
      rw [h, if_neg hKne]
      rfl
    · -- both
      rw [if_neg hD0]
      have hD : D ≠ [] := fun h => hD0 (by rw [h]; rfl)
      have hlD : s.s_list D.length degree = .ok LD := by simpa [Listing, hD] using hLD
      obtain ⟨LD', hD1, hD2, hDs, -⟩ := (hzD hD).open hsame
      have := hD1.list
      rw [hlD] at this
      obtain rfl : LD = LD' := by simpa using this
      simp only [hD2.iter, hDs, hK2.iter, Out.ok_bind]
      have hjoint : ∀ (dirs : IVec) (m k : IVec) (g : Nat → Nat), (∀ x ∈ dirs, x ∈ D ∨ x ∈ K) →
          (∀ x ∈ D, g x = at' D m x) →
          dirs.map (fun x => if x ∈ K then at' K k x else g x) = dirs.map (joint D m K k) := by
        intro dirs m k g hc hg
        apply List.map_congr_left
        intro x hx
        by_cases hxK : x ∈ K
        · rw [if_pos hxK, joint, if_neg (hDK x hxK)]
        · have hxD : x ∈ D := (hc x hx).resolve_right hxK
          rw [if_neg hxK, joint, if_pos hxD, hg x hxD]
      obtain ⟨r, e, -, hl, h⟩ := hD2.loop (acc := (freshIter K.length LK, List.replicate LD.length (0 : α)))
        (body := fun i m st => do
          let ms ← fillFree (innerPlan 0 0 dirs1 dirs2) m (List.replicate dirs1.length 0, List.replicate dirs2.length 0)
          let r ← iterLoopS st.1.reset 0 (ms, st.2) fun _ k st => do
            let ms ← fillInner (innerPlan 0 0 dirs1 dirs2) k st.1
            if !((freshIter dirs1.length L1).has ms.1) || !((freshIter dirs2.length L2).has ms.2) then .ok (ms, st.2)
            else do
              let ind1 ← (freshIter dirs1.length L1).index ms.1
              let ind2 ← (freshIter dirs2.length L2).index ms.2
              let x ← rd s1 ind1
              let y ← rd s2 ind2
              let old ← rd st.2 i
              let result ← wr st.2 i (old + x * y)
              .ok (ms, result)
          .ok (r.1, r.2.2))
        (fun i st => st.1.reset = freshIter K.length LK ∧ st.2.length = LD.length ∧ (∀ (t : Nat) (m : IVec), LD[t]? = some m → t < i →
          st.2[t]? = some (LK.foldl (addTerm L1 L2 s1 s2 dirs1 dirs2 D m K) 0)) ∧
          ∀ t, t < LD.length → i ≤ t → st.2[t]? = some 0)
        ⟨freshIter_reset _ _, by simp, fun t m _ h => absurd h (Nat.not_lt_zero _), fun t ht _ => by simp [ht]⟩
        (by
          rintro i m ⟨it0, r⟩ hm ⟨hre, hr, hP, hQ⟩
          simp only at hre hr hP hQ
          have hin := (hD1.mem m).1 (List.mem_of_getElem? hm)
          have hi : i < LD.length := (List.getElem?_eq_some_iff.1 hm).1
          have e1 : fillFree (innerPlan 0 0 dirs1 dirs2) m (List.replicate dirs1.length 0, List.replicate dirs2.length 0) =
              .ok (dirs1.map (fun x => if x ∈ D then at' D m x else 0), dirs2.map (fun x => if x ∈ D then at' D m x else 0)) := by
            rw [zeros_eq, zeros_eq, fillFree_ok hp hi1 hi2 (by rw [eD]; exact inSet_length hin), eD]
          obtain ⟨it', st, e2, hre', -, hl2, hv, ho⟩ := hK2.loopS
            (acc := ((dirs1.map (fun x => if x ∈ D then at' D m x else 0),
              dirs2.map (fun x => if x ∈ D then at' D m x else 0)), r))
            (body := fun _ k st => do
              let ms ← fillInner (innerPlan 0 0 dirs1 dirs2) k st.1
              if !((freshIter dirs1.length L1).has ms.1) || !((freshIter dirs2.length L2).has ms.2) then .ok (ms, st.2)
              else do
                let ind1 ← (freshIter dirs1.length L1).index ms.1
                let ind2 ← (freshIter dirs2.length L2).index ms.2
                let x ← rd s1 ind1
                let y ← rd s2 ind2
                let old ← rd st.2 i
                let result ← wr st.2 i (old + x * y)
                .ok (ms, result))
            (fun t st => (∃ g1 g2, st.1 = (dirs1.map g1, dirs2.map g2) ∧ (∀ x ∈ D, g1 x = at' D m x) ∧
                ∀ x ∈ D, g2 x = at' D m x) ∧ st.2.length = LD.length ∧
              st.2[i]? = some ((LK.take t).foldl (addTerm L1 L2 s1 s2 dirs1 dirs2 D m K) 0) ∧
              ∀ u, u ≠ i → st.2[u]? = r[u]?)
            ⟨⟨_, _, rfl, fun x hx => if_pos hx, fun x hx => if_pos hx⟩, hr, by simpa using hQ i hi le_rfl, fun _ _ => rfl⟩
            (by
              intro t k st hk ⟨⟨g1, g2, hg, hg1, hg2⟩, hlen, hval, hoth⟩
              have hkin := (hK1.mem k).1 (List.mem_of_getElem? hk)
              have e3 : fillInner (innerPlan 0 0 dirs1 dirs2) k st.1 =
                  .ok (dirs1.map (joint D m K k), dirs2.map (joint D m K k)) := by
                rw [hg, fillInner_ok hp hi1 hi2 (by rw [eK]; exact inSet_length hkin), eK, hjoint dirs1 m k g1 hcov1 hg1,
                  hjoint dirs2 m k g2 hcov2 hg2]
              have hg' : ∃ g1 g2, (dirs1.map (joint D m K k), dirs2.map (joint D m K k)) = (dirs1.map g1, dirs2.map g2) ∧
                  (∀ x ∈ D, g1 x = at' D m x) ∧ ∀ x ∈ D, g2 x = at' D m x :=
                ⟨joint D m K k, joint D m K k, rfl, fun x hx => if_pos hx, fun x hx => if_pos hx⟩
              by_cases hc : InSet s dirs1.length degree (dirs1.map (joint D m K k)) ∧
                  InSet s dirs2.length degree (dirs2.map (joint D m K k))
              · obtain ⟨i1, f1, q1⟩ := read_coef hL1 hs1 hc.1
                obtain ⟨i2, f2, q2⟩ := read_coef hL2 hs2 hc.2
                have hil : i < st.2.length := by omega
                have hold : rd st.2 i = .ok ((LK.take t).foldl (addTerm L1 L2 s1 s2 dirs1 dirs2 D m K) 0) := by
                  rw [rd_of_lt hil]
                  rw [List.getElem?_eq_getElem hil] at hval
                  rw [Option.some.inj hval]
                refine ⟨((dirs1.map (joint D m K k), dirs2.map (joint D m K k)),
                  st.2.set i ((LK.take (t + 1)).foldl (addTerm L1 L2 s1 s2 dirs1 dirs2 D m K) 0)), ?_, hg',
                  by simpa using hlen, by rw [List.getElem?_set_self hil], fun u hu' => ?_⟩
                · rw [e3]
                  simp only [Out.ok_bind]
                  rw [if_neg (by rw [(hL1.has _).2 hc.1, (hL2.has _).2 hc.2]; decide)]
                  simp only [f1, f2, q1, q2, hold, Out.ok_bind]
                  rw [wr_of_lt hil, foldl_take_succ LK _ _ hk, addTerm, if_pos ⟨(hL1.mem _).2 hc.1, (hL2.mem _).2 hc.2⟩]
                  rfl
                · rw [List.getElem?_set_ne (fun h => hu' h.symm)]
                  exact hoth u hu'
              · refine ⟨((dirs1.map (joint D m K k), dirs2.map (joint D m K k)), st.2), ?_, hg', hlen, ?_, hoth⟩
                · rw [e3]
                  simp only [Out.ok_bind]
                  rw [if_pos]
                  by_contra hcc
                  rw [Bool.or_eq_true, not_or, Bool.not_eq_true', Bool.not_eq_true', Bool.not_eq_false,
                    Bool.not_eq_false] at hcc
                  exact hc ⟨(hL1.has _).1 hcc.1, (hL2.has _).1 hcc.2⟩
                · rw [foldl_take_succ LK _ _ hk, addTerm, if_neg (fun h => hc ⟨(hL1.mem _).1 h.1, (hL2.mem _).1 h.2⟩)]
                  exact hval)
          refine ⟨(it', st.2), ?_, hre', hl2, fun t m' ht hti => ?_, fun t ht hit => ?_⟩
          · rw [e1]
            simp only [Out.ok_bind, hre]
            rw [e2]
            rfl
          · by_cases hit : t = i
            · subst hit
              rw [hm] at ht
              obtain rfl := Option.some.inj ht
              rw [List.take_length] at hv
              exact hv
            · rw [ho t hit]
              exact hP t m' ht (by omega)
          · rw [ho t (by omega)]
            exact hQ t ht (by omega))
      exact ⟨r.2, by rw [e]; rfl, hl, fun i m hm => by rw [if_neg hKne]; exact h.1 i m hm (List.getElem?_eq_some_iff.1 hm).1⟩

theorem foldl_addTerm [NonUnitalNonAssocSemiring α] {L1 L2 : List IVec} {s1 s2 : List α} (hs1 : s1.length = L1.length)
    (hs2 : s2.length = L2.length) (dirs1 dirs2 D m K : IVec) : ∀ (LK : List IVec) (acc : α),
    LK.foldl (addTerm L1 L2 s1 s2 dirs1 dirs2 D m K) acc = acc + (LK.map fun k => term L1 L2 s1 s2 dirs1 dirs2 D m K k).sum
  | [], acc => by simp
  | k :: LK, acc => by
    have hstep : addTerm L1 L2 s1 s2 dirs1 dirs2 D m K acc k = acc + term L1 L2 s1 s2 dirs1 dirs2 D m K k := by
      rw [addTerm]
      split
      · rfl
      · rename_i hc
        have hzero : term L1 L2 s1 s2 dirs1 dirs2 D m K k = 0 := by
          rw [term]
          by_cases h1 : dirs1.map (joint D m K k) ∈ L1
          · rw [coef_of_notMem (L := L2) (by omega) (fun h => hc ⟨h1, h⟩), mul_zero]
          · rw [coef_of_notMem (L := L1) (by omega) h1, zero_mul]
        rw [hzero, add_zero]
    rw [List.foldl_cons, foldl_addTerm hs1 hs2, hstep, List.map_cons, List.sum_cons, add_assoc]

theorem inner_ok [NonUnitalNonAssocSemiring α] {s : IndexSet} {degree : Nat} {dirs1 dirs2 D K : IVec}
    (hu : Usable s dirs1.length degree) (hz2 : Sized s dirs2.length degree) (hi1 : Inc dirs1) (hi2 : Inc dirs2)
    (hsf : SharedFree dirs1 dirs2 D K) (hzD : D ≠ [] → Sized s D.length degree) {L1 L2 LD LK : List IVec}
    (hL1 : IterOk s dirs1.length degree L1) (hL2 : IterOk s dirs2.length degree L2) (hLD : Listing s degree D LD)
    (hLK : Listing s degree K LK) {s1 s2 : List α} (hs1 : s1.length = L1.length) (hs2 : s2.length = L2.length) :
    ∃ r, inner s s1 s2 dirs1 dirs2 = .ok r ∧ r.length = LD.length ∧
      ∀ (i : Nat) (m : IVec), LD[i]? = some m →
        r[i]? = some ((LK.map fun k => term L1 L2 s1 s2 dirs1 dirs2 D m K k).sum) := by
  obtain ⟨r, e, hl, h⟩ := inner_fold hu hz2 hi1 hi2 hsf hzD hL1 hL2 hLD hLK hs1 hs2
  refine ⟨r, e, hl, fun i m hm => ?_⟩
  rw [h i m hm]
  split
  · rename_i hK
    subst hK
    obtain ⟨-, rfl⟩ : ([] : IVec) = [] ∧ LK = [[]] := by simpa [Listing] using hLK
    simp
  · rw [foldl_addTerm hs1 hs2, zero_add]

end Hermipy
