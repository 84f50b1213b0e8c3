import Verif.Lemmas.Embed
import Verif.Lemmas.Project
import Verif.Lemmas.ProjectMat
import Verif.Lemmas.TensorizeMats
import Verif.Lemmas.Small

/-! # Projection of tensor products -/

namespace Hermipy

open Spec

variable {α : Type}

theorem IterOk.idxOf_zero {s : IndexSet} {dim degree : Nat} {L : List IVec} (h : IterOk s dim degree L) :
    L.idxOf (List.replicate dim 0) = 0 ∧ List.replicate dim 0 ∈ L := by
  obtain ⟨t, ht⟩ := h.runs.head
  rw [ht]
  simp

theorem coef_zero [Zero α] {s : IndexSet} {dim degree : Nat} {L : List IVec} (h : IterOk s dim degree L) (v : List α) :
    coef L v (List.replicate dim 0) = v.getD 0 0 := by
  rw [coef, h.idxOf_zero.1]

theorem coef_tensor [CommMonoidWithZero α] {s : IndexSet} {dim degree : Nat} {b : Block α} {l1 l2 : List (Block α)}
    (hz : Sized s dim degree) (hb : ∀ c ∈ l1 ++ b :: l2, c.Ok s degree ∧ Dirs s dim c.dirs)
    (hdisj : ∀ c ∈ l1 ++ l2, ∀ x ∈ c.dirs, x ∉ b.dirs) {k : Nat} {sub : IVec} (hk : b.list[k]? = some sub) :
    ((l1 ++ b :: l2).map fun c => c.coef (embed dim b.dirs sub)).prod =
      b.vec.getD k 0 * ((l1 ++ l2).map fun c => c.vec.getD 0 0).prod := by
  have ok : ∀ c ∈ l1 ++ b :: l2, IterOk s c.dirs.length degree c.list := fun c hc =>
    IterOk.of_list (hz.sub (hb c hc).2.length_pos (hb c hc).2.length_le).fits' (hb c hc).1.1
  have hbm : b ∈ l1 ++ b :: l2 := by simp
  have hs := inSet_length (((ok b hbm).mem _).1 (List.mem_of_getElem? hk))
  have hp : (l1 ++ b :: l2).Perm (b :: (l1 ++ l2)) := List.perm_middle
  rw [(hp.map _).prod_eq, List.map_cons, List.prod_cons]
  congr 1
  · rw [Block.coef, restrict_embed (hb b hbm).2.nodup (hb b hbm).2.lt hs, coef_of_getElem? (ok b hbm).nodup hk]
  · congr 1
    apply List.map_congr_left
    intro c hc
    have hc' : c ∈ l1 ++ b :: l2 := hp.mem_iff.2 (by simp [List.mem_append.1 hc])
    rw [Block.coef, restrict_embed_disjoint hs (hb c hc').2.lt (hdisj c hc), coef_zero (ok c hc')]

theorem entry_tensor [CommMonoidWithZero α] {s : IndexSet} {dim degree : Nat} {b : MBlock α} {l1 l2 : List (MBlock α)}
    (ok : ∀ c ∈ l1 ++ b :: l2, IterOk s c.dirs.length degree c.list)
    (hd : ∀ c ∈ l1 ++ b :: l2, c.dirs.Nodup ∧ ∀ x ∈ c.dirs, x < dim)
    (hdisj : ∀ c ∈ l1 ++ l2, ∀ x ∈ c.dirs, x ∉ b.dirs) {k l : Nat} {m n : IVec} (hk : b.list[k]? = some m)
    (hl : b.list[l]? = some n) :
    ((l1 ++ b :: l2).map fun c => c.entry (embed dim b.dirs m) (embed dim b.dirs n)).prod =
      b.fn k l * ((l1 ++ l2).map fun c => c.fn 0 0).prod := by
  have hbm : b ∈ l1 ++ b :: l2 := by simp
  have hm := inSet_length (((ok b hbm).mem _).1 (List.mem_of_getElem? hk))
  have hn := inSet_length (((ok b hbm).mem _).1 (List.mem_of_getElem? hl))
  have hp : (l1 ++ b :: l2).Perm (b :: (l1 ++ l2)) := List.perm_middle
  rw [(hp.map _).prod_eq, List.map_cons, List.prod_cons]
  congr 1
  · rw [MBlock.entry, restrict_embed (hd b hbm).1 (hd b hbm).2 hm, restrict_embed (hd b hbm).1 (hd b hbm).2 hn, entry,
      if_pos ⟨List.mem_of_getElem? hk, List.mem_of_getElem? hl⟩, idxOf_of_getElem? (ok b hbm).nodup hk,
      idxOf_of_getElem? (ok b hbm).nodup hl]
  · congr 1
    apply List.map_congr_left
    intro c hc
    have hc' : c ∈ l1 ++ b :: l2 := hp.mem_iff.2 (by simp [List.mem_append.1 hc])
    have hz := (ok c hc').idxOf_zero
    rw [MBlock.entry, restrict_embed_disjoint hm (hd c hc').2 (hdisj c hc),
      restrict_embed_disjoint hn (hd c hc').2 (hdisj c hc), entry, if_pos ⟨hz.2, hz.2⟩, hz.1]

end Hermipy
