import Verif.Lemmas.Along

/-! # Embedding multi-indices -/

namespace Hermipy

open Spec

theorem map_at'_self {dirs sub : IVec} (hn : dirs.Nodup) (hl : sub.length = dirs.length) : dirs.map (at' dirs sub) = sub :=
  along_self hn hl

@[to_additive sum_embed_map]
theorem prod_embed {M : Type} [CommMonoid M] (g : Nat → M) (hg : g 0 = 1) {dim : Nat} {dirs sub : IVec} (hn : dirs.Nodup)
    (hlt : ∀ d ∈ dirs, d < dim) (hl : sub.length = dirs.length) :
    ((embed dim dirs sub).map g).prod = (sub.map g).prod := by
  have h1 : ((embed dim dirs sub).map g).prod = ∏ j ∈ Finset.range dim, g (at' dirs sub j) := by
    rw [embed, List.map_map, show Finset.range dim = (List.range dim).toFinset by ext; simp, List.prod_toFinset _ List.nodup_range]
    rfl
  have h2 : (sub.map g).prod = ∏ j ∈ dirs.toFinset, g (at' dirs sub j) := by
    rw [List.prod_toFinset _ hn]
    conv_lhs => rw [← map_at'_self hn hl, List.map_map]
    rfl
  rw [h1, h2]
  symm
  apply Finset.prod_subset
  · intro x hx
    simpa using hlt x (by simpa using hx)
  · intro x _ hx
    rw [at'_of_notMem (by simpa using hx) (by omega), hg]

theorem sum_embed {dim : Nat} {dirs sub : IVec} (hn : dirs.Nodup) (hlt : ∀ d ∈ dirs, d < dim)
    (hl : sub.length = dirs.length) : (embed dim dirs sub).sum = sub.sum := by
  have := sum_embed_map (M := Nat) id rfl hn hlt hl
  simpa using this

theorem inSet_embed {s : IndexSet} {dim degree : Nat} {dirs sub : IVec} (hd : Dirs s dim dirs)
    (h0 : s = .rectangle → 0 ∈ dirs) (hm : InSet s dirs.length degree sub) : InSet s dim degree (embed dim dirs sub) := by
  have hl := inSet_length hm
  have hmem : ∀ j, at' dirs sub j = 0 ∨ at' dirs sub j ∈ sub := by
    intro j
    rw [at', List.getD_eq_getElem?_getD]
    cases h : sub[dirs.idxOf j]? with
    | none => left; rfl
    | some x => right; exact List.mem_of_getElem? h
  cases s with
  | triangle => exact ⟨embed_length _ _ _, by rw [sum_embed hd.nodup hd.lt hl]; exact hm.2⟩
  | cube =>
    refine ⟨embed_length _ _ _, fun x hx => ?_⟩
    obtain ⟨j, -, rfl⟩ := List.mem_map.1 hx
    rcases hmem j with h | h
    · omega
    · exact hm.2 _ h
  | cross => exact ⟨embed_length _ _ _, by rw [prod_embed (max 1) rfl hd.nodup hd.lt hl]; exact hm.2⟩
  | cross_nc => exact ⟨embed_length _ _ _, by rw [prod_embed (max 1) rfl hd.nodup hd.lt hl]; exact hm.2⟩
  | rectangle =>
    refine ⟨embed_length _ _ _, fun i hi => ?_⟩
    simp only [embed, List.getElem_map, List.getElem_range]
    rw [at', List.getD_eq_getElem?_getD]
    by_cases hk : dirs.idxOf i < sub.length
    · rw [List.getElem?_eq_getElem hk]
      have h1 := hm.2 _ hk
      simp only [Option.getD_some]
      by_cases hi0 : i = 0
      · rw [if_pos hi0]
        by_cases h2 : dirs.idxOf i = 0
        · rw [if_pos h2] at h1; exact h1
        · rw [if_neg h2] at h1; omega
      · rw [if_neg hi0]
        have h2 : dirs.idxOf i ≠ 0 := by
          intro h2
          have h3 : dirs.idxOf 0 < dirs.length := List.idxOf_lt_length_of_mem (h0 rfl)
          have h4 := hd.first rfl _ h3 (List.getElem_idxOf h3)
          have h5 : dirs[dirs.idxOf i]'(by omega) = i := List.getElem_idxOf (by omega)
          have h6 : dirs[dirs.idxOf 0]'(by omega) = 0 := List.getElem_idxOf (by omega)
          simp only [h2] at h5
          simp only [h4] at h6
          omega
        rw [if_neg h2] at h1; exact h1
    · rw [List.getElem?_eq_none (by omega)]
      simp

theorem restrict_embed_disjoint {dim : Nat} {dirs dirs' sub : IVec} (hl : sub.length = dirs.length)
    (hlt : ∀ d ∈ dirs', d < dim) (hdisj : ∀ d ∈ dirs', d ∉ dirs) :
    restrict dirs' (embed dim dirs sub) = List.replicate dirs'.length 0 := by
  rw [List.eq_replicate_iff]
  refine ⟨restrict_length _ _, fun x hx => ?_⟩
  obtain ⟨d, hd, rfl⟩ := List.mem_map.1 hx
  rw [embed_getD (hlt d hd), at'_of_notMem (hdisj d hd) (by omega)]

end Hermipy
