import Verif.Lemmas.Varfd

/-! # The derivative form on nested vectors -/

namespace Hermipy

open Spec

theorem ItAt.increment {s : IndexSet} {dim degree : Nat} {L : List IVec} (h : IterOk s dim degree L) {j : Nat} {it : Iter}
    (hi : ItAt L dim j it) (hj : j < L.length) : ∃ it', it.increment = .ok it' ∧ ItAt L dim (j + 1) it' := by
  have hm := List.getElem?_eq_getElem hj
  obtain ⟨hm1, hm2⟩ := hi.pos _ hm
  have hlen : ∀ (i : Nat) (hi : i < L.length), (L[i]).length = dim := fun i hi =>
    inSet_length ((h.mem _).1 (List.getElem_mem hi))
  have hcur : it.multi_index.length = dim := by rw [hm1]; exact hlen j hj
  have hre := hi.reset
  by_cases hlast : j + 1 = L.length
  · refine ⟨{ it with full := true }, ?_, ?_, hi.list, ?_⟩
    · rw [Iter.increment, if_pos (by rw [hi.list, hm2]; omega)]
    · simpa [Iter.reset] using hre
    · intro m hm
      rw [List.getElem?_eq_none (by omega)] at hm
      simp at hm
  · have hj1 : j + 1 < L.length := by omega
    refine ⟨{ it with index_list := j + 1, multi_index := L[j + 1] }, ?_, ?_, hi.list, ?_⟩
    · rw [Iter.increment, if_neg (by rw [hi.list, hm2]; omega), hi.list, hm2, rd_of_lt hj1]
      rfl
    · simp only [Iter.reset] at hre ⊢
      rw [← hre]
      simp [hlen, hcur]
    · intro m hm
      rw [List.getElem?_eq_getElem hj1] at hm
      exact ⟨by simpa using hm, rfl⟩

/-- The column from which a column is computed, and the factor. -/
def srcIdx (fl d : Nat) (J : IVec) : IVec := if fl = 0 then lower d J else partner d J

noncomputable def srcFactor (fl d : Nat) (J : IVec) : ℝ :=
  if fl = 1 then ((if J.getD d 0 % 2 = 0 then wrap32 (u32 - J.getD d 0 / 2) else (J.getD d 0 + 1) / 2 : Nat) : ℝ)
  else √(J.getD d 0 : ℝ)

theorem varfdColumn_ok {s : IndexSet} {dim degree d fl j : Nat} (hz : Sized s dim degree) {L : List IVec}
    (ok : IterOk s dim degree L) (hd : d < dim) {it : Iter} (hit : ItAt L dim j it) (hj : j < L.length) {A : DMat ℝ}
    {f : Nat → Nat → ℝ} (hA : IsMat A L.length L.length f)
    (hsrc : (L.getD j []).getD d 0 ≠ 0 → srcIdx fl d (L.getD j []) ∈ L) {R : DMat ℝ} {g : Nat → Nat → ℝ}
    (hR : IsMat R L.length L.length g) :
    ∃ R', varfdColumn it d A fl j R = .ok R' ∧ IsMat R' L.length L.length (fun i k => if k = j ∧ (L.getD j []).getD d 0 ≠ 0 then
      srcFactor fl d (L.getD j []) * f i (L.idxOf (srcIdx fl d (L.getD j []))) else g i k) := by
  obtain ⟨hm1, -⟩ := hit.pos _ (List.getElem?_eq_getElem hj)
  have hJe : L[j] = L.getD j [] := by simp [hj]
  rw [hJe] at hm1
  have hJ : InSet s dim degree (L.getD j []) := (ok.mem _).1 (by simp [hj])
  have hlen := inSet_length hJ
  have hle := entry_le hz hJ d
  have hdl : d < (L.getD j []).length := by omega
  obtain ⟨J, hJd⟩ : ∃ J, J = L.getD j [] := ⟨_, rfl⟩
  rw [← hJd] at hm1 hJ hlen hle hdl hsrc ⊢
  rw [varfdColumn, hm1, rd_getD 0 hdl, Out.ok_bind]
  by_cases h0 : J.getD d 0 = 0
  · rw [if_pos h0]
    exact ⟨R, rfl, LawfulMat.congr hR fun i k _ _ => by rw [if_neg (fun h => h.2 h0)]⟩
  · rw [if_neg h0]
    have hmem := hsrc h0
    have e1 : (if fl = 0 then J.getD d 0 - 1 else if J.getD d 0 % 2 = 0 then J.getD d 0 - 1 else wrap32 (J.getD d 0 + 1)) =
        if fl = 0 then J.getD d 0 - 1 else if J.getD d 0 % 2 = 0 then J.getD d 0 - 1 else J.getD d 0 + 1 := by
      rw [wrap32_of_lt hle]
    have e2 : J.set d (if fl = 0 then J.getD d 0 - 1 else if J.getD d 0 % 2 = 0 then J.getD d 0 - 1 else J.getD d 0 + 1) =
        srcIdx fl d J := by
      rw [srcIdx, lower, partner]
      split_ifs <;> rfl
    rw [e1, wr_of_lt hdl, Out.ok_bind, e2, reset_index, hit.reset, ok.index_of_mem ((ok.mem _).1 hmem), Out.ok_bind]
    have hid := List.idxOf_lt_length_iff.2 hmem
    have hAl : A.length = L.length := hA.1
    have e3 : (if fl = 1 then ((if J.getD d 0 % 2 = 0 then
        wrap32 (u32 - wrap32 (J.getD d 0 + (if J.getD d 0 % 2 = 0 then 0 else 1)) / 2) else
        wrap32 (J.getD d 0 + (if J.getD d 0 % 2 = 0 then 0 else 1)) / 2 : Nat) : ℝ) else √(J.getD d 0 : ℝ)) = srcFactor fl d J := by
      rw [srcFactor, wrap32_of_lt (n := J.getD d 0 + _) (by split_ifs <;> omega)]
      by_cases he : J.getD d 0 % 2 = 0
      · simp only [if_pos he, Nat.add_zero]
      · simp only [if_neg he]
    simp only [e3]
    rw [hAl]
    obtain ⟨R', e, hR'⟩ := forRange_inv (n := L.length) (acc := R) (body := fun i results => do
        let row ← rd A i
        let x ← rd row (L.idxOf (srcIdx fl d J))
        MatOps.set results i j (srcFactor fl d J * x))
      (fun t M => IsMat M L.length L.length (fun i k => if k = j ∧ i < t then
        srcFactor fl d J * f i (L.idxOf (srcIdx fl d J)) else g i k))
      (LawfulMat.congr hR fun i k _ _ => by rw [if_neg (by omega)]) (by
        intro i M hi hM
        have hrow : i < A.length := by omega
        have hl : (A[i]).length = L.length := hA.2.1 _ (List.getElem_mem hrow)
        have hv := hA.2.2 i _ _ _ (List.getElem?_eq_getElem hrow) (List.getElem?_eq_getElem (by omega : L.idxOf (srcIdx fl d J) < A[i].length))
        rw [rd_of_lt hrow, Out.ok_bind, rd_of_lt (by omega), Out.ok_bind, hv]
        obtain ⟨M', e', hM'⟩ := LawfulMat.set hM hi hj (srcFactor fl d J * f i (L.idxOf (srcIdx fl d J)))
        refine ⟨M', e', LawfulMat.congr hM' fun a b _ _ => ?_⟩
        by_cases hab : a = i ∧ b = j
        · rw [if_pos hab, if_pos ⟨hab.2, by omega⟩, hab.1]
        · rw [if_neg hab]
          by_cases hbj : b = j
          · have : a ≠ i := fun h => hab ⟨h, hbj⟩
            by_cases hai : a < i
            · rw [if_pos ⟨hbj, hai⟩, if_pos ⟨hbj, by omega⟩]
            · rw [if_neg (by omega), if_neg (by omega)]
          · rw [if_neg (by tauto), if_neg (by tauto)])
    refine ⟨R', e, LawfulMat.congr hR' fun a b ha _ => ?_⟩
    by_cases hb : b = j
    · rw [if_pos ⟨hb, ha⟩, if_pos ⟨hb, h0⟩]
    · rw [if_neg (by tauto), if_neg (by tauto)]

theorem varfd_mat_ok {s : IndexSet} {dim degree d fl : Nat} (hz : Sized s dim degree) {L : List IVec}
    (ok : IterOk s dim degree L) (hd : d < dim) {A : DMat ℝ} {f : Nat → Nat → ℝ} (hA : IsMat A L.length L.length f)
    (hsrc : ∀ J ∈ L, J.getD d 0 ≠ 0 → srcIdx fl d J ∈ L) :
    ∃ R, varfd_mat s dim degree d A fl = .ok R ∧ IsMat R L.length L.length (fun i j => if (L.getD j []).getD d 0 ≠ 0 then
      srcFactor fl d (L.getD j []) * f i (L.idxOf (srcIdx fl d (L.getD j []))) else 0) := by
  have hAl : A.length = L.length := hA.1
  obtain ⟨t, ht⟩ := ok.runs.head
  obtain ⟨⟨it, R⟩, e, -, hR⟩ := forRange_inv (n := L.length)
    (acc := (freshIter dim L, List.replicate L.length (List.replicate L.length (0 : ℝ)))) (body := fun j st => do
      let results ← varfdColumn st.1 d A fl j st.2
      let m2 ← st.1.increment
      .ok (m2, results))
    (fun t st => ItAt L dim t st.1 ∧ IsMat st.2 L.length L.length (fun i j => if j < t ∧ (L.getD j []).getD d 0 ≠ 0 then
      srcFactor fl d (L.getD j []) * f i (L.idxOf (srcIdx fl d (L.getD j []))) else 0))
    ⟨⟨freshIter_reset _ _, rfl, by
      intro m hm
      rw [ht] at hm
      simp only [List.getElem?_cons_zero, Option.some.injEq] at hm
      subst hm
      exact ⟨rfl, rfl⟩⟩,
      LawfulMat.congr (LawfulMat.construct (M := DMat ℝ) L.length L.length) fun i j _ _ => by rw [if_neg (by omega)]⟩ (by
      rintro j ⟨it, M⟩ hj ⟨hi, hM⟩
      obtain ⟨M', e, hM'⟩ := varfdColumn_ok hz ok hd hi hj hA (hsrc _ (by simp [hj])) hM
      obtain ⟨it', e', hi'⟩ := hi.increment ok hj
      refine ⟨(it', M'), ?_, hi', LawfulMat.congr hM' fun a b _ _ => ?_⟩
      · simp only at e
        simp only [e, e', Out.ok_bind]
      · by_cases hb : b = j
        · subst hb
          by_cases h0 : (L.getD b []).getD d 0 ≠ 0
          · rw [if_pos ⟨rfl, h0⟩, if_pos ⟨by omega, h0⟩]
          · rw [if_neg (by tauto), if_neg (by tauto), if_neg (by tauto)]
        · rw [if_neg (by tauto)]
          by_cases hbj : b < j
          · by_cases h0 : (L.getD b []).getD d 0 ≠ 0
            · rw [if_pos ⟨hbj, h0⟩, if_pos ⟨by omega, h0⟩]
            · rw [if_neg (by tauto), if_neg (by tauto)]
          · rw [if_neg (by omega), if_neg (by omega)])
  refine ⟨R, ?_, LawfulMat.congr hR fun i j _ hj => ?_⟩
  · rw [varfd_mat, ok.iter, Out.ok_bind, freshIter_reset]
    simp only [hAl]
    rw [e, Out.ok_bind]
  · by_cases h0 : (L.getD j []).getD d 0 ≠ 0
    · rw [if_pos ⟨hj, h0⟩, if_pos h0]
    · rw [if_neg (by tauto), if_neg h0]

end Hermipy
