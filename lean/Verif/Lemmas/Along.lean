import Verif.Lemmas.Usable
import Verif.Model.Tensorize

/-! # Multi-indices indexed by increasing lists of directions -/

namespace Hermipy

open Spec

/-- Entries along `dirs` of a multi-index `m` whose positions are the directions `d`. -/
def along (d dirs m : IVec) : IVec := dirs.map (at' d m)

abbrev Inc (l : IVec) : Prop := l.Pairwise (· < ·)

theorem Inc.nodup {l : IVec} (h : Inc l) : l.Nodup := h.imp (fun h => Nat.ne_of_lt h)

theorem along_length (d dirs m : IVec) : (along d dirs m).length = dirs.length := by simp [along]

theorem along_eq_restrict (d dirs m : IVec) : along d dirs m = restrict (dirs.map (fun x => d.idxOf x)) m := by
  simp only [along, restrict, List.map_map]
  rfl

theorem Inc.idxOf_lt {d : IVec} (h : Inc d) {x y : Nat} (hx : x ∈ d) (hy : y ∈ d) (hxy : x < y) :
    d.idxOf x < d.idxOf y := by
  have h1 := List.idxOf_lt_length_of_mem hx
  have h2 := List.idxOf_lt_length_of_mem hy
  by_contra hc
  rcases Nat.lt_or_ge (d.idxOf y) (d.idxOf x) with h3 | h3
  · have := List.pairwise_iff_getElem.1 h _ _ h2 h1 h3
    simp only [List.getElem_idxOf] at this
    omega
  · have e : d.idxOf x = d.idxOf y := by omega
    have e1 : d[d.idxOf x] = x := List.getElem_idxOf h1
    have e2 : d[d.idxOf y] = y := List.getElem_idxOf h2
    have : x = y := by
      rw [← e1, ← e2]
      simp only [e]
    omega

theorem Inc.positions {d dirs : IVec} (h : Inc d) (h' : Inc dirs) (hs : ∀ x ∈ dirs, x ∈ d) :
    Inc (dirs.map (fun x => d.idxOf x)) := by
  rw [Inc, List.pairwise_map]
  exact h'.imp_of_mem (fun ha hb hab => h.idxOf_lt (hs _ ha) (hs _ hb) hab)

theorem positions_lt {d dirs : IVec} (hs : ∀ x ∈ dirs, x ∈ d) : ∀ p ∈ dirs.map (fun x => d.idxOf x), p < d.length := by
  intro p hp
  obtain ⟨x, hx, rfl⟩ := List.mem_map.1 hp
  exact List.idxOf_lt_length_of_mem (hs x hx)

theorem positions_dirs (s : IndexSet) {d dirs : IVec} (h : Inc d) (h' : Inc dirs) (hne : dirs ≠ [])
    (hs : ∀ x ∈ dirs, x ∈ d) : Dirs s d.length (dirs.map (fun x => d.idxOf x)) :=
  dirs_of_increasing s (by simpa using hne) (h.positions h' hs) (positions_lt hs)

theorem inSet_along {s : IndexSet} {degree : Nat} {d dirs m : IVec} (h : Inc d) (h' : Inc dirs) (hne : dirs ≠ [])
    (hs : ∀ x ∈ dirs, x ∈ d) (hm : InSet s d.length degree m) : InSet s dirs.length degree (along d dirs m) := by
  rw [along_eq_restrict]
  have := inSet_restrict (positions_dirs s h h' hne hs) hm
  rwa [List.length_map] at this

theorem at'_along {d d' m : IVec} {x : Nat} (hx : x ∈ d) : at' d (along d' d m) x = at' d' m x := by
  have h1 := List.idxOf_lt_length_of_mem hx
  rw [at', along]
  simp only [List.getD_eq_getElem?_getD, List.getElem?_map, List.getElem?_eq_getElem h1]
  simp [List.getElem_idxOf]

theorem along_along {d d' dirs m : IVec} (hs : ∀ x ∈ dirs, x ∈ d) : along d dirs (along d' d m) = along d' dirs m := by
  simp only [along]
  apply List.map_congr_left
  intro x hx
  exact at'_along (hs x hx)

theorem along_self {d m : IVec} (hn : d.Nodup) (hl : m.length = d.length) : along d d m = m := by
  apply List.ext_getElem
  · simp [along_length, hl]
  · intro i h1 h2
    rw [along_length] at h1
    simp only [along, List.getElem_map]
    exact at'_of_getElem hn h1 hl

theorem at'_range {dim : Nat} {m : IVec} {x : Nat} (hx : x < dim) : at' (List.range dim) m x = m.getD x 0 := by
  rw [at']
  have : (List.range dim).idxOf x = x := by
    have := List.nodup_range.idxOf_getElem (xs := List.range dim) x (by simpa using hx)
    simpa using this
  rw [this]

theorem along_range {dim : Nat} {dirs m : IVec} (hs : ∀ x ∈ dirs, x < dim) :
    along (List.range dim) dirs m = restrict dirs m := by
  simp only [along, restrict]
  apply List.map_congr_left
  intro x hx
  exact at'_range (hs x hx)

/-- Two multi-indices over `d` that agree along two lists covering `d` are equal. -/
theorem eq_of_along {d dA dB m m' : IVec} (hn : d.Nodup) (hl : m.length = d.length) (hl' : m'.length = d.length)
    (hc : ∀ x ∈ d, x ∈ dA ∨ x ∈ dB) (hA : along d dA m = along d dA m') (hB : along d dB m = along d dB m') : m = m' := by
  rw [← along_self hn hl, ← along_self hn hl']
  simp only [along] at *
  apply List.map_congr_left
  intro x hx
  rcases hc x hx with h | h
  · exact (List.map_inj_left.1 hA) x h
  · exact (List.map_inj_left.1 hB) x h

/-! ## Merging directions -/

theorem idxOf_cons_ne' {a x : Nat} {l : IVec} (h : a ≠ x) : (a :: l).idxOf x = l.idxOf x + 1 :=
  List.idxOf_cons_ne _ h

/-- Result of merging two disjoint increasing lists. -/
theorem tensorize_dirs_spec : ∀ (n i : Nat) (as bs : IVec), as.length + bs.length = n → Inc as → Inc bs →
    (∀ x ∈ as, x ∉ bs) →
    let r := tensorize_dirs i as bs
    Inc r.1 ∧ r.1.Perm (as ++ bs) ∧ r.2.1 = as.map (fun x => i + r.1.idxOf x) ∧
      r.2.2 = bs.map (fun x => i + r.1.idxOf x) := by
  intro n
  induction n with
  | zero =>
    intro i as bs hn _ _ _
    obtain rfl : as = [] := List.length_eq_zero_iff.1 (by omega)
    obtain rfl : bs = [] := List.length_eq_zero_iff.1 (by omega)
    simp [tensorize_dirs]
  | succ n ih =>
    have left : ∀ (i a : Nat) (as bs : IVec), as.length + bs.length = n → Inc (a :: as) → Inc bs →
        (∀ x ∈ a :: as, x ∉ bs) → (∀ b ∈ bs, a < b) →
        let r := tensorize_dirs (i + 1) as bs
        Inc (a :: r.1) ∧ (a :: r.1).Perm (a :: as ++ bs) ∧
          i :: r.2.1 = (a :: as).map (fun x => i + (a :: r.1).idxOf x) ∧
          r.2.2 = bs.map (fun x => i + (a :: r.1).idxOf x) := by
      intro i a as bs hn ha hb hd hlt
      have ha' := List.pairwise_cons.1 ha
      obtain ⟨h1, h2, h3, h4⟩ := ih (i + 1) as bs hn ha'.2 hb (fun x hx => hd x (by simp [hx]))
      refine ⟨List.pairwise_cons.2 ⟨fun x hx => ?_, h1⟩, h2.cons a, ?_, ?_⟩
      · rcases List.mem_append.1 (h2.mem_iff.1 hx) with hx | hx
        · exact ha'.1 x hx
        · exact hlt x hx
      · rw [List.map_cons, h3, List.idxOf_cons_self]
        congr 1
        apply List.map_congr_left
        intro x hx
        rw [idxOf_cons_ne' (Nat.ne_of_lt (ha'.1 x hx))]
        omega
      · rw [h4]
        apply List.map_congr_left
        intro x hx
        rw [idxOf_cons_ne' (Nat.ne_of_lt (hlt x hx))]
        omega
    have right : ∀ (i b : Nat) (as bs : IVec), as.length + bs.length = n → Inc as → Inc (b :: bs) →
        (∀ x ∈ as, x ∉ b :: bs) → (∀ a ∈ as, b < a) →
        let r := tensorize_dirs (i + 1) as bs
        Inc (b :: r.1) ∧ (b :: r.1).Perm (as ++ b :: bs) ∧
          r.2.1 = as.map (fun x => i + (b :: r.1).idxOf x) ∧
          i :: r.2.2 = (b :: bs).map (fun x => i + (b :: r.1).idxOf x) := by
      intro i b as bs hn ha hb hd hlt
      have hb' := List.pairwise_cons.1 hb
      obtain ⟨h1, h2, h3, h4⟩ := ih (i + 1) as bs hn ha hb'.2 (fun x hx h => hd x hx (by simp [h]))
      refine ⟨List.pairwise_cons.2 ⟨fun x hx => ?_, h1⟩, (h2.cons b).trans List.perm_middle.symm, ?_, ?_⟩
      · rcases List.mem_append.1 (h2.mem_iff.1 hx) with hx | hx
        · exact hlt x hx
        · exact hb'.1 x hx
      · rw [h3]
        apply List.map_congr_left
        intro x hx
        rw [idxOf_cons_ne' (Nat.ne_of_lt (hlt x hx))]
        omega
      · rw [List.map_cons, h4, List.idxOf_cons_self]
        congr 1
        apply List.map_congr_left
        intro x hx
        rw [idxOf_cons_ne' (Nat.ne_of_lt (hb'.1 x hx))]
        omega
    intro i as bs hn ha hb hd
    match as, bs with
    | [], [] => simp at hn
    | a :: as, [] =>
      have := left i a as [] (by simpa using hn) ha hb hd (by simp)
      rw [tensorize_dirs]
      simpa using this
    | [], b :: bs =>
      have := right i b [] bs (by simpa using hn) ha hb hd (by simp)
      rw [tensorize_dirs]
      simpa using this
    | a :: as, b :: bs =>
      have ha' := List.pairwise_cons.1 ha
      have hb' := List.pairwise_cons.1 hb
      rw [tensorize_dirs]
      by_cases hab : a < b
      · rw [if_pos hab]
        exact left i a as (b :: bs) (by simp at hn ⊢; omega) ha hb hd (fun x hx => by
          rcases List.mem_cons.1 hx with rfl | hx
          · exact hab
          · exact lt_trans hab (hb'.1 x hx))
      · rw [if_neg hab]
        have hba : b < a := by
          have := hd a (by simp)
          simp at this
          omega
        exact right i b (a :: as) bs (by simp at hn ⊢; omega) ha hb hd (fun x hx => by
          rcases List.mem_cons.1 hx with rfl | hx
          · exact hba
          · exact lt_trans hba (ha'.1 x hx))

/-! ## Scattering -/

theorem scatter_spec {to_ind m base : IVec} (hn : to_ind.Nodup) (hl : m.length = to_ind.length)
    (hlt : ∀ p ∈ to_ind, p < base.length) :
    ∃ r, scatter to_ind.length to_ind m base = .ok r ∧ r.length = base.length ∧
      (∀ p ∈ to_ind, r.getD p 0 = at' to_ind m p) ∧ ∀ p, p ∉ to_ind → r.getD p 0 = base.getD p 0 := by
  obtain ⟨r, e, h1, h2, h3⟩ := forRange_inv (n := to_ind.length) (acc := base)
    (body := fun i base => do
      let p ← rd to_ind i
      let x ← rd m i
      wr base p x)
    (fun k r => r.length = base.length ∧
      (∀ i (h : i < to_ind.length), i < k → r.getD to_ind[i] 0 = m.getD i 0) ∧
      ∀ p, p ∉ to_ind → r.getD p 0 = base.getD p 0)
    ⟨rfl, by simp, fun _ _ => rfl⟩
    (by
      intro i r hi ⟨h1, h2, h3⟩
      have hp := hlt _ (List.getElem_mem hi)
      refine ⟨r.set to_ind[i] (m[i]'(by omega)), ?_, by simpa using h1, ?_, ?_⟩
      · rw [rd_of_lt hi]
        simp only [Out.ok_bind]
        rw [rd_of_lt (by omega)]
        simp only [Out.ok_bind]
        exact wr_of_lt (by omega)
      · intro j hj hji
        by_cases hij : i = j
        · subst hij
          rw [List.getD_eq_getElem?_getD, List.getElem?_set_self (by omega)]
          simp [show i < m.length by omega]
        · rw [List.getD_eq_getElem?_getD, List.getElem?_set_ne, ← List.getD_eq_getElem?_getD]
          · exact h2 j hj (by omega)
          · intro hc
            exact hij ((List.Nodup.getElem_inj_iff hn).1 hc)
      · intro p hp'
        rw [List.getD_eq_getElem?_getD, List.getElem?_set_ne, ← List.getD_eq_getElem?_getD]
        · exact h3 p hp'
        · intro hc
          exact hp' (hc ▸ List.getElem_mem hi))
  refine ⟨r, e, h1, fun p hp => ?_, h3⟩
  obtain ⟨i, hi, rfl⟩ := List.getElem_of_mem hp
  rw [h2 i hi hi, at'_of_getElem hn hi hl]
  simp [show i < m.length by omega]

end Hermipy
