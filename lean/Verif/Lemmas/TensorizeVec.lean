import Verif.Model.Tensorize
import Verif.Lemmas.Usable
import Mathlib.Algebra.BigOperators.Group.List.Basic

/-! # Tensorization of vectors -/

namespace Hermipy

open Spec

variable {α : Type}

theorem totalDim_eq (dirs : List IVec) : totalDim dirs = (dirs.map List.length).sum := by
  rw [totalDim, List.sum_eq_foldl]

theorem mkIters_ok {s : IndexSet} {d degree : Nat} (hsame : SameSets s d degree) : ∀ (bs : List (Block α)),
    (∀ b ∈ bs, b.Ok s degree ∧ Sized s b.dirs.length degree) →
    mkIters s d (bs.map (·.dirs)) = .ok (bs.map fun b => freshIter b.dirs.length b.list)
  | [], _ => rfl
  | b :: bs, h => by
    obtain ⟨L, h1, h2, h3, h4⟩ := (h b (by simp)).2.open hsame
    have := h1.list
    rw [(h b (by simp)).1.1] at this
    obtain rfl : b.list = L := by simpa using this
    rw [List.map_cons, mkIters, h2.iter, mkIters_ok hsame bs (fun b hb => h b (by simp [hb]))]
    rfl

/-- The entries in the order of the multiplications, for any operations. -/
theorem tensorize_vecs_fold [MulOneClass α] [Zero α] {s : IndexSet} {dim degree : Nat} {b0 : Block α} {bs : List (Block α)}
    (hu : Usable s b0.dirs.length degree) (hz : Sized s dim degree)
    (hdim : ((b0 :: bs).map (·.dirs.length)).sum = dim) (hb : ∀ b ∈ b0 :: bs, b.Ok s degree ∧ Dirs s dim b.dirs)
    {L : List IVec} (hL : IterOk s dim degree L) :
    ∃ r, tensorize_vecs_dirs s ((b0 :: bs).map (·.vec)) ((b0 :: bs).map (·.dirs)) = .ok r ∧ r.length = L.length ∧
      ∀ (i : Nat) (m : IVec), L[i]? = some m → r[i]? = some ((b0 :: bs).foldl (fun x b => x * b.coef m) 1) := by
  have hb0 := (hb b0 (by simp)).1
  obtain ⟨d, hdeg, hsame⟩ := hu.degree (IterOk.of_list hu.toSized.fits' hb0.1)
  obtain ⟨L', hL1, hL2, hsz, -⟩ := hz.open hsame
  have := hL.unique hL1; subst this
  have hsized : ∀ b ∈ b0 :: bs, b.Ok s degree ∧ Sized s b.dirs.length degree := fun b h =>
    ⟨(hb b h).1, hz.sub (hb b h).2.length_pos (hb b h).2.length_le⟩
  have hits := mkIters_ok hsame (b0 :: bs) hsized
  have htd : totalDim ((b0 :: bs).map (·.dirs)) = dim := by
    rw [totalDim_eq, List.map_map, ← hdim]; rfl
  have key := hL2.loop (acc := List.replicate L.length (0 : α))
    (body := fun i m results => do
      let x ← forRange ((b0 :: bs).map (·.dirs)).length (1 : α) fun j x => do
        let d ← rd ((b0 :: bs).map (·.dirs)) j
        let sub ← extract m d
        let it ← rd ((b0 :: bs).map fun b => freshIter b.dirs.length b.list) j
        let ind ← it.index sub
        let input ← rd ((b0 :: bs).map (·.vec)) j
        let y ← rd input ind
        .ok (x * y)
      wr results i x)
    (fun i r => r.length = L.length ∧ ∀ (k : Nat) (m : IVec), L[k]? = some m → k < i →
      r[k]? = some ((b0 :: bs).foldl (fun x b => x * b.coef m) 1))
    ⟨by simp, fun k m _ h => absurd h (Nat.not_lt_zero _)⟩
    (by
      intro i m r hm ⟨hr, hP⟩
      have hin := (hL.mem m).1 (List.mem_of_getElem? hm)
      have hml := inSet_length hin
      have hi : i < L.length := (List.getElem?_eq_some_iff.1 hm).1
      obtain ⟨x, ex, hx⟩ := forRange_inv (n := ((b0 :: bs).map (·.dirs)).length) (acc := (1 : α))
        (body := fun j x => do
          let d ← rd ((b0 :: bs).map (·.dirs)) j
          let sub ← extract m d
          let it ← rd ((b0 :: bs).map fun b => freshIter b.dirs.length b.list) j
          let ind ← it.index sub
          let input ← rd ((b0 :: bs).map (·.vec)) j
          let y ← rd input ind
          .ok (x * y))
        (fun j x => x = ((b0 :: bs).take j).foldl (fun x b => x * b.coef m) 1) (by simp)
        (by
          intro j x hj hx
          rw [List.length_map] at hj
          have hbj := hb _ (List.getElem_mem hj)
          have hzj := (hsized _ (List.getElem_mem hj)).2
          have hok := IterOk.of_list hzj.fits' hbj.1.1
          have hres := inSet_restrict hbj.2 hin
          have hlt := List.idxOf_lt_length_of_mem ((hok.mem _).2 hres)
          refine ⟨x * ((b0 :: bs)[j]).coef m, ?_, ?_⟩
          · rw [rd_of_lt (by simpa using hj)]
            simp only [Out.ok_bind, List.getElem_map]
            rw [extract_eq (fun d hd' => by rw [hml]; exact hbj.2.lt d hd')]
            simp only [Out.ok_bind]
            rw [rd_of_lt (by simpa using hj)]
            simp only [Out.ok_bind, List.getElem_map]
            rw [hok.index_of_mem hres]
            simp only [Out.ok_bind]
            rw [rd_of_lt (by simpa using hj)]
            simp only [Out.ok_bind, List.getElem_map]
            have h5 : ((b0 :: bs)[j]).list.idxOf (restrict ((b0 :: bs)[j]).dirs m) < ((b0 :: bs)[j]).vec.length := by
              rw [hbj.1.2]; exact hlt
            rw [rd_of_lt h5]
            simp only [Out.ok_bind]
            simp only [Block.coef, coef, List.getD_eq_getElem?_getD, List.getElem?_eq_getElem h5, Option.getD_some]
          · rw [List.take_succ_eq_append_getElem hj, List.foldl_append, hx]
            rfl)
      rw [List.length_map, List.take_length] at hx
      refine ⟨r.set i x, ?_, by simpa using hr, ?_⟩
      · rw [ex]
        simp only [Out.ok_bind]
        exact wr_of_lt (by omega)
      · intro k m' hk hki
        by_cases h : i = k
        · subst h
          rw [hm] at hk
          obtain rfl := Option.some.inj hk
          rw [List.getElem?_set_self (by omega), hx]
        · rw [List.getElem?_set_ne h]
          exact hP k m' hk (by omega))
  obtain ⟨r, e, hr, hP⟩ := key
  refine ⟨r, ?_, hr, fun i m hm => hP i m hm (List.getElem?_eq_some_iff.1 hm).1⟩
  rw [tensorize_vecs_dirs, htd]
  simp only [List.map_cons, rd_zero_cons, Out.ok_bind] at hits e ⊢
  rw [hb0.2, hdeg]
  simp only [Out.ok_bind, hits, hsz, hL2.iter]
  exact e

theorem tensorize_vecs_ok [MonoidWithZero α] {s : IndexSet} {dim degree : Nat} {b0 : Block α} {bs : List (Block α)}
    (hu : Usable s b0.dirs.length degree) (hz : Sized s dim degree)
    (hdim : ((b0 :: bs).map (·.dirs.length)).sum = dim) (hb : ∀ b ∈ b0 :: bs, b.Ok s degree ∧ Dirs s dim b.dirs)
    {L : List IVec} (hL : IterOk s dim degree L) :
    ∃ r, tensorize_vecs_dirs s ((b0 :: bs).map (·.vec)) ((b0 :: bs).map (·.dirs)) = .ok r ∧ r.length = L.length ∧
      ∀ (i : Nat) (m : IVec), L[i]? = some m → r[i]? = some (((b0 :: bs).map fun b => b.coef m).prod) := by
  obtain ⟨r, e, hl, h⟩ := tensorize_vecs_fold hu hz hdim hb hL
  refine ⟨r, e, hl, fun i m hm => ?_⟩
  rw [h i m hm, List.prod_eq_foldl, List.foldl_map]

end Hermipy
