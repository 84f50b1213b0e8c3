import Verif.Lemmas.Project
import Verif.Lemmas.Matrix

/-! # Projection of matrices -/

namespace Hermipy

open Spec

variable {α : Type}

theorem pos_eq_iff {s : IndexSet} {dim d : Nat} {dirs : IVec} (hd : Dirs s dim dirs) {L Ls : List IVec}
    (hL : IterOk s dim d L) (hS : IterOk s dirs.length d Ls) {i k : Nat} {m sub : IVec} (hm : L[i]? = some m)
    (hk : Ls[k]? = some sub) : L.idxOf (embed dim dirs sub) = i ↔ isAligned m dirs = true ∧ restrict dirs m = sub := by
  have hin := (hL.mem m).1 (List.mem_of_getElem? hm)
  have hml := inSet_length hin
  have hi : i < L.length := (List.getElem?_eq_some_iff.1 hm).1
  have hsl := inSet_length ((hS.mem sub).1 (List.mem_of_getElem? hk))
  constructor
  · intro e
    by_cases hmm : embed dim dirs sub ∈ L
    · have := getElem?_idxOf' hmm
      rw [e, hm] at this
      have h3 := Option.some.inj this
      have h4 : restrict dirs m = sub := by rw [h3, restrict_embed hd.nodup hd.lt hsl]
      refine ⟨?_, h4⟩
      rw [aligned_iff_embed hml, h4]
      exact h3
    · rw [List.idxOf_eq_length hmm] at e
      omega
  · rintro ⟨h1, h2⟩
    rw [aligned_iff_embed hml, h2] at h1
    rw [← h1]
    exact idxOf_of_getElem? hL.nodup hm

theorem project_mat_ok {M : Type} [Zero α] [MatOps M α] [Meaning M α] [LawfulMat M α] {s : IndexSet} {dim degree : Nat}
    (hu : Usable s dim degree) {dirs : IVec} (hd : Dirs s dim dirs) {L : List IVec} (hL : IterOk s dim degree L)
    {A : M} {f : Nat → Nat → α} (hA : IsMat A L.length L.length f) :
    ∃ Ls r, IterOk s dirs.length degree Ls ∧ project_mat s A dim dirs = .ok r ∧
      IsMat r Ls.length Ls.length
        (fun a b => entry L f (embed dim dirs (Ls.getD a [])) (embed dim dirs (Ls.getD b []))) := by
  obtain ⟨d, hdeg, hsame⟩ := hu.degree hL
  obtain ⟨L', hL1, hL2, hsz, -⟩ := hu.toSized.open hsame
  have := hL.unique hL1; subst this
  obtain ⟨Ls, hS1, hS2, hSsz, -⟩ := (hu.toSized.sub hd.length_pos hd.length_le).open hsame
  obtain ⟨pos, hpos⟩ : ∃ pos : Nat → Nat, pos = fun a => L.idxOf (embed dim dirs (Ls.getD a [])) := ⟨_, rfl⟩
  obtain ⟨E, hE⟩ : ∃ E : Nat → Nat → α, E = fun a b =>
    entry L f (embed dim dirs (Ls.getD a [])) (embed dim dirs (Ls.getD b [])) := ⟨_, rfl⟩
  have hpos_eq : ∀ {i : Nat} {m : IVec} {a : Nat}, L[i]? = some m → a < Ls.length →
      (pos a = i ↔ isAligned m dirs = true ∧ a = Ls.idxOf (restrict dirs m)) := by
    intro i m a hm ha
    have hk : Ls[a]? = some Ls[a] := List.getElem?_eq_getElem ha
    have hg : Ls.getD a [] = Ls[a] := by simp [ha]
    rw [hpos]
    beta_reduce
    rw [hg, pos_eq_iff hd hL2 hS2 hm hk]
    refine and_congr_right fun _ => ?_
    constructor
    · intro e; rw [e]; exact (idxOf_of_getElem? hS2.nodup hk).symm
    · intro e
      have hres := inSet_restrict hd ((hL2.mem m).1 (List.mem_of_getElem? hm))
      have h1 := getElem?_idxOf' ((hS2.mem _).2 hres)
      rw [← e, hk] at h1
      exact (Option.some.inj h1).symm
  have hE0 : ∀ a b, ¬ (pos a < L.length ∧ pos b < L.length) → E a b = 0 := by
    intro a b h
    rw [hE]
    beta_reduce
    rw [entry, if_neg]
    rintro ⟨h1, h2⟩
    exact h ⟨by rw [hpos]; exact List.idxOf_lt_length_of_mem h1, by rw [hpos]; exact List.idxOf_lt_length_of_mem h2⟩
  have hE1 : ∀ a b, pos a < L.length → pos b < L.length → E a b = f (pos a) (pos b) := by
    intro a b h1 h2
    rw [hpos] at h1 h2
    beta_reduce at h1 h2
    rw [List.idxOf_lt_length_iff] at h1 h2
    rw [hE, hpos]
    beta_reduce
    rw [entry, if_pos ⟨h1, h2⟩]
  have key := hL2.loop (acc := (freshIter dim L, MatOps.construct (M := M) Ls.length Ls.length))
    (body := fun i m1 st =>
      if isAligned m1 dirs then do
        let sub1 ← extract m1 dirs
        let ind1 ← (freshIter dirs.length Ls).index sub1
        iterLoopS st.1.reset 0 st.2 fun j m2 results =>
          if isAligned m2 dirs then do
            let sub2 ← extract m2 dirs
            let ind2 ← (freshIter dirs.length Ls).index sub2
            let x ← MatOps.get A i j
            MatOps.set results ind1 ind2 x
          else .ok results
      else .ok st)
    (fun i st => st.1.reset = freshIter dim L ∧ IsMat st.2 Ls.length Ls.length (fun a b => if pos a < i then E a b else 0))
    ⟨freshIter_reset _ _, LawfulMat.congr (LawfulMat.construct _ _) fun _ _ _ _ => by simp⟩
    (by
      rintro i m1 ⟨it0, r⟩ hm1 ⟨hre, hr⟩
      simp only at hre hr
      have hin := (hL2.mem m1).1 (List.mem_of_getElem? hm1)
      have hml := inSet_length hin
      have hi : i < L.length := (List.getElem?_eq_some_iff.1 hm1).1
      by_cases hal : isAligned m1 dirs = true
      · have hres := inSet_restrict hd hin
        have hindex := hS2.index_of_mem hres
        have hlt := List.idxOf_lt_length_of_mem ((hS2.mem _).2 hres)
        have hp1 : pos (Ls.idxOf (restrict dirs m1)) = i := (hpos_eq hm1 hlt).2 ⟨hal, rfl⟩
        simp only [hal, if_true]
        rw [extract_eq (fun d hd' => by rw [hml]; exact hd.lt d hd')]
        simp only [Out.ok_bind]
        rw [hindex]
        simp only [Out.ok_bind, hre]
        have hin2 := hL2.loopS (acc := r)
          (body := fun j m2 results =>
            if isAligned m2 dirs then do
              let sub2 ← extract m2 dirs
              let ind2 ← (freshIter dirs.length Ls).index sub2
              let x ← MatOps.get A i j
              MatOps.set results (Ls.idxOf (restrict dirs m1)) ind2 x
            else .ok results)
          (fun j r => IsMat r Ls.length Ls.length
            (fun a b => if pos a < i ∨ (pos a = i ∧ pos b < j) then E a b else 0))
          (LawfulMat.congr hr fun a b _ _ => by simp)
          (by
            intro j m2 r hm2 hr
            have hin := (hL2.mem m2).1 (List.mem_of_getElem? hm2)
            have hml := inSet_length hin
            have hj : j < L.length := (List.getElem?_eq_some_iff.1 hm2).1
            by_cases hal2 : isAligned m2 dirs = true
            · have hres2 := inSet_restrict hd hin
              have hindex := hS2.index_of_mem hres2
              have hlt2 := List.idxOf_lt_length_of_mem ((hS2.mem _).2 hres2)
              have hp2 : pos (Ls.idxOf (restrict dirs m2)) = j := (hpos_eq hm2 hlt2).2 ⟨hal2, rfl⟩
              simp only [hal2, if_true]
              rw [extract_eq (fun d hd' => by rw [hml]; exact hd.lt d hd')]
              simp only [Out.ok_bind]
              rw [hindex]
              simp only [Out.ok_bind]
              rw [LawfulMat.get hA hi hj]
              simp only [Out.ok_bind]
              obtain ⟨r', e, hr'⟩ := LawfulMat.set hr hlt hlt2 (f i j)
              refine ⟨r', e, LawfulMat.congr hr' fun a b ha hb => ?_⟩
              have ea := hpos_eq hm1 ha
              have eb := hpos_eq hm2 hb
              by_cases hab : a = Ls.idxOf (restrict dirs m1) ∧ b = Ls.idxOf (restrict dirs m2)
              · obtain ⟨rfl, rfl⟩ := hab
                rw [if_pos ⟨rfl, rfl⟩, if_pos (by omega), hE1 _ _ (by omega) (by omega), hp1, hp2]
              · rw [if_neg hab]
                have : ¬ (pos a = i ∧ pos b = j) := fun h => hab ⟨(ea.1 h.1).2, (eb.1 h.2).2⟩
                by_cases h3 : pos a < i ∨ (pos a = i ∧ pos b < j)
                · rw [if_pos h3, if_pos (by omega)]
                · rw [if_neg h3, if_neg (by omega)]
            · simp only [hal2]
              refine ⟨r, rfl, LawfulMat.congr hr fun a b ha hb => ?_⟩
              have eb := hpos_eq hm2 hb
              have : pos b ≠ j := fun h => hal2 (eb.1 h).1
              by_cases h3 : pos a < i ∨ (pos a = i ∧ pos b < j)
              · rw [if_pos h3, if_pos (by omega)]
              · rw [if_neg h3, if_neg (by omega)])
        obtain ⟨it', r', e, hre', hr'⟩ := hin2
        refine ⟨(it', r'), e, hre', LawfulMat.congr hr' fun a b ha hb => ?_⟩
        by_cases h3 : pos a < i ∨ (pos a = i ∧ pos b < L.length)
        · rw [if_pos h3, if_pos (by omega)]
        · rw [if_neg h3]
          by_cases h4 : pos a < i + 1
          · rw [if_pos h4, hE0 _ _ (by omega)]
          · rw [if_neg h4]
      · simp only [hal]
        refine ⟨(it0, r), rfl, hre, LawfulMat.congr hr fun a b ha hb => ?_⟩
        have ea := hpos_eq hm1 ha
        have : pos a ≠ i := fun h => hal (ea.1 h).1
        by_cases h3 : pos a < i
        · rw [if_pos h3, if_pos (by omega)]
        · rw [if_neg h3, if_neg (by omega)])
  obtain ⟨⟨_, r⟩, e, -, hr⟩ := key
  refine ⟨Ls, r, hS1, ?_, LawfulMat.congr hr fun a b ha hb => ?_⟩
  · rw [project_mat, LawfulMat.size1 hA, hdeg]
    simp only [Out.ok_bind, hSsz, hL2.iter, hS2.iter]
    rw [freshIter_reset, e]
    rfl
  · by_cases h3 : pos a < L.length
    · rw [if_pos h3, hE]
    · rw [if_neg h3, ← hE0 a b (by omega), hE]

end Hermipy
