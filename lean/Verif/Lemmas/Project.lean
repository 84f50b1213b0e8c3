import Verif.Model.Project
import Verif.Lemmas.Usable

/-! # Projection of vectors and matrices -/

namespace Hermipy

open Spec

variable {α : Type}

theorem project_vec_ok [Zero α] {s : IndexSet} {dim degree : Nat} (hu : Usable s dim degree) {dirs : IVec}
    (hd : Dirs s dim dirs) {L : List IVec} (hL : IterOk s dim degree L) {v : List α} (hv : v.length = L.length) :
    ∃ Ls r, IterOk s dirs.length degree Ls ∧ project_vec s v dim dirs = .ok r ∧ r.length = Ls.length ∧
      ∀ (k : Nat) (sub : IVec), Ls[k]? = some sub → r[k]? = some (coef L v (embed dim dirs sub)) := by
  obtain ⟨d, hdeg, hsame⟩ := hu.degree hL
  obtain ⟨L', hL1, hL2, hsz, -⟩ := hu.toSized.open hsame
  have := hL.unique hL1; subst this
  obtain ⟨Ls, hS1, hS2, hSsz, -⟩ := (hu.toSized.sub hd.length_pos hd.length_le).open hsame
  have key := hL2.loop (acc := List.replicate Ls.length (0 : α))
    (body := fun i m results =>
      if isAligned m dirs then do
        let sub ← extract m dirs
        let ind ← (freshIter dirs.length Ls).index sub
        let x ← rd v i
        wr results ind x
      else .ok results)
    (fun i r => r.length = Ls.length ∧ ∀ (k : Nat) (sub : IVec), Ls[k]? = some sub →
      r[k]? = some (if L.idxOf (embed dim dirs sub) < i then coef L v (embed dim dirs sub) else 0))
    ⟨by simp, fun k sub hk => by
      have := (List.getElem?_eq_some_iff.1 hk).1
      simp [this]⟩
    (by
      intro i m r hm ⟨hr, hP⟩
      have hin := (hL2.mem m).1 (List.mem_of_getElem? hm)
      have hml := inSet_length hin
      have hi : i < L.length := (List.getElem?_eq_some_iff.1 hm).1
      have hidx := idxOf_of_getElem? hL2.nodup hm
      by_cases hal : isAligned m dirs = true
      · have hres := inSet_restrict hd hin
        have hindex := hS2.index_of_mem hres
        have hmem := (hS2.mem _).2 hres
        have hlt := List.idxOf_lt_length_of_mem hmem
        refine ⟨r.set (Ls.idxOf (restrict dirs m)) v[i], ?_, by simpa using hr, ?_⟩
        · simp only [hal, if_true]
          rw [extract_eq (fun d hd' => by rw [hml]; exact hd.lt d hd')]
          simp only [Out.ok_bind]
          rw [hindex]
          simp only [Out.ok_bind]
          rw [rd_of_lt (by omega)]
          simp only [Out.ok_bind]
          exact wr_of_lt (by omega)
        · intro k sub hk
          have hk' := idxOf_of_getElem? hS2.nodup hk
          have hsl := inSet_length ((hS2.mem sub).1 (List.mem_of_getElem? hk))
          rw [aligned_iff_embed hml] at hal
          by_cases hsub : sub = restrict dirs m
          · subst hsub
            rw [← hal, hidx, if_pos (by omega), hk', coef_of_getElem? hL2.nodup hm]
            have := (List.getElem?_eq_some_iff.1 hk).1
            rw [List.getElem?_set_self (by omega)]
            simp [show i < v.length by omega]
          · have hne : Ls.idxOf (restrict dirs m) ≠ k := by
              intro e
              have := getElem?_idxOf' hmem
              rw [e, hk] at this
              exact hsub (Option.some.inj this)
            rw [List.getElem?_set_ne hne, hP k sub hk]
            have hne2 : L.idxOf (embed dim dirs sub) ≠ i := by
              intro e
              by_cases hmm : embed dim dirs sub ∈ L
              · have := getElem?_idxOf' hmm
                rw [e, hm] at this
                have h3 := Option.some.inj this
                apply hsub
                rw [h3, restrict_embed hd.nodup hd.lt hsl]
              · rw [List.idxOf_eq_length hmm] at e
                omega
            by_cases h4 : L.idxOf (embed dim dirs sub) < i
            · rw [if_pos h4, if_pos (by omega)]
            · rw [if_neg h4, if_neg (by omega)]
      · refine ⟨r, ?_, hr, ?_⟩
        · simp only [hal]
          rfl
        · intro k sub hk
          have hsl := inSet_length ((hS2.mem sub).1 (List.mem_of_getElem? hk))
          rw [hP k sub hk]
          have hne2 : L.idxOf (embed dim dirs sub) ≠ i := by
            intro e
            by_cases hmm : embed dim dirs sub ∈ L
            · have := getElem?_idxOf' hmm
              rw [e, hm] at this
              have h3 := Option.some.inj this
              apply hal
              rw [aligned_iff_embed hml, h3, restrict_embed hd.nodup hd.lt hsl]
            · rw [List.idxOf_eq_length hmm] at e
              omega
          by_cases h4 : L.idxOf (embed dim dirs sub) < i
          · rw [if_pos h4, if_pos (by omega)]
          · rw [if_neg h4, if_neg (by omega)])
  obtain ⟨r, e, hr, hP⟩ := key
  refine ⟨Ls, r, hS1, ?_, hr, fun k sub hk => ?_⟩
  · rw [project_vec, hv, hdeg]
    simp only [Out.ok_bind, hSsz, hL2.iter, hS2.iter, freshIter_reset]
    exact e
  · rw [hP k sub hk]
    by_cases hmm : embed dim dirs sub ∈ L
    · rw [if_pos (List.idxOf_lt_length_of_mem hmm)]
    · rw [coef_of_notMem (by omega) hmm]
      simp

end Hermipy
