import Verif.Lemmas.VarfdMat
import Verif.Lemmas.Rounding
import Verif.Lemmas.RoundedVarfExact
import Verif.Model.RoundedVarfd

/-! # Derivative forms in floating-point arithmetic -/

namespace Hermipy

open Spec

/-- Stored elements moved to other columns: `tgt c` is the column to which column `c` goes and what is done to its elements. -/
theorem applyColumns {β : Type} [Zero β] {T : Type} [MatOps T β] [Stored T β] [Meaning T β] [LawfulMat T β] [LawfulStored T β] {A : T} {n1 n2 : Nat}
    {f : Nat → Nat → β} (hA : IsMat A n1 n2 f) (tgt : Nat → Option (Nat × (β → β)))
    (hlt : ∀ c id x, c < n2 → tgt c = some (id, x) → id < n2)
    (hx0 : ∀ c id x, tgt c = some (id, x) → x 0 = 0)
    (hinj : ∀ c c' id x x', c < n2 → c' < n2 → tgt c = some (id, x) → tgt c' = some (id, x') → c = c')
    (step : T → (Nat × Nat) × β → Out T)
    (hnone : ∀ R (e : (Nat × Nat) × β), e ∈ Stored.stored A → tgt e.1.2 = none → step R e = .ok R)
    (hsome : ∀ R (e : (Nat × Nat) × β) id x, e ∈ Stored.stored A → tgt e.1.2 = some (id, x) →
      step R e = MatOps.set R e.1.1 id (x e.2)) :
    ∃ R : T, (Stored.stored A).foldlM step (MatOps.construct (M := T) n1 n2) = .ok R ∧ ∃ g, IsMat R n1 n2 g ∧
      (∀ i j c x, i < n1 → c < n2 → tgt c = some (j, x) → g i j = x (f i c)) ∧
      (∀ i j, (∀ c x, c < n2 → tgt c ≠ some (j, x)) → g i j = 0) := by
  obtain ⟨hnd, hval, hzero⟩ := LawfulStored.stored hA
  obtain ⟨R, e, g, hg, h1, h2⟩ := foldlM_inv (f := step) (fun k R => ∃ g, IsMat R n1 n2 g ∧
      (∀ i j c x, i < n1 → c < n2 → tgt c = some (j, x) →
        ((∃ e ∈ (Stored.stored A).take k, e.1 = (i, c)) → g i j = x (f i c)) ∧
        ((∀ e ∈ (Stored.stored A).take k, e.1 ≠ (i, c)) → g i j = 0)) ∧
      (∀ i j, (∀ c x, c < n2 → tgt c ≠ some (j, x)) → g i j = 0)) (Stored.stored A) (MatOps.construct (M := T) n1 n2)
    ⟨_, LawfulMat.construct n1 n2, by simp, by simp⟩ (by
      intro k e R hk ⟨g, hg, h1, h2⟩
      have he := List.mem_of_getElem? hk
      obtain ⟨b1, b2, b3⟩ := hval e he
      have htake : (Stored.stored A).take (k + 1) = (Stored.stored A).take k ++ [e] := by
        rw [List.take_add_one, hk]; rfl
      cases ht : tgt e.1.2 with
      | none =>
        refine ⟨R, hnone R e he ht, g, hg, ?_, h2⟩
        intro i j c x hi hc hx
        have hne : e.1 ≠ (i, c) := by
          intro hh
          rw [hh] at ht
          simp [hx] at ht
        obtain ⟨p1, p2⟩ := h1 i j c x hi hc hx
        rw [htake]
        constructor
        · rintro ⟨e', he', hh⟩
          rcases List.mem_append.1 he' with he' | he'
          · exact p1 ⟨e', he', hh⟩
          · rw [List.mem_singleton.1 he'] at hh
            exact absurd hh hne
        · intro hh
          exact p2 fun e' he' => hh e' (List.mem_append.2 (.inl he'))
      | some y =>
        obtain ⟨id, y⟩ := y
        obtain ⟨R', e', hR'⟩ := LawfulMat.set hg b1 (hlt _ _ _ b2 ht) (y e.2)
        refine ⟨R', by rw [hsome R e id y he ht, e'], _, hR', ?_, ?_⟩
        · intro i j c x hi hc hx
          obtain ⟨p1, p2⟩ := h1 i j c x hi hc hx
          rw [htake]
          by_cases hh : i = e.1.1 ∧ j = id
          · obtain ⟨hi', rfl⟩ := hh
            have hcc := hinj c e.1.2 j x y hc b2 hx ht
            rw [if_pos ⟨hi', rfl⟩]
            have hxy : x = y := by
              rw [hcc, ht] at hx
              simpa using hx.symm
            constructor
            · intro _
              rw [b3, hi', hcc, hxy]
            · intro hne
              refine absurd ?_ (hne e (by simp))
              rw [hi', hcc]
          · rw [if_neg hh]
            have hne : e.1 ≠ (i, c) := by
              intro hc'
              apply hh
              rw [hc'] at ht ⊢
              rw [hx] at ht
              simp only [Option.some.injEq, Prod.mk.injEq] at ht
              exact ⟨rfl, ht.1⟩
            constructor
            · rintro ⟨e', he', hh⟩
              rcases List.mem_append.1 he' with he' | he'
              · exact p1 ⟨e', he', hh⟩
              · rw [List.mem_singleton.1 he'] at hh
                exact absurd hh hne
            · intro hh
              exact p2 fun e' he' => hh e' (List.mem_append.2 (.inl he'))
        · intro i j hj
          rw [if_neg]
          · exact h2 i j hj
          · rintro ⟨-, rfl⟩
            exact hj _ _ b2 ht)
  refine ⟨R, e, g, hg, ?_, h2⟩
  intro i j c x hi hc hx
  obtain ⟨p1, p2⟩ := h1 i j c x hi hc hx
  rw [List.take_length] at p1 p2
  by_cases hst : ∃ e ∈ Stored.stored A, e.1 = (i, c)
  · exact p1 hst
  · push Not at hst
    rw [p2 hst, hzero i c hi hc hst, hx0 c j x hx]

section

variable {α : Type} [Doubles α]

/-- What is done to an element for the column `J`. -/
def moveVal (fl d : Nat) (J : IVec) (x : α) : α :=
  if fl = 0 then x * Floats.sqrt (Floats.ofNat (J.getD d 0))
  else x * (if J.getD d 0 % 2 = 1 then 1 else -1) * Floats.ofNat ((J.getD d 0 + 1) / 2)

theorem moveVal_zero (fl d : Nat) (J : IVec) : moveVal fl d J (0 : α) = 0 := by
  rw [moveVal]
  split_ifs <;> simp [Doubles.zero_mul]

/-- The column to which the column `J` goes. -/
def dstIdx (fl d : Nat) (J : IVec) : IVec := if fl = 0 then J.set d (J.getD d 0 + 1) else partner d J

theorem srcIdx_dstIdx {fl d : Nat} {J : IVec} (h : d < J.length) (h0 : fl = 0 ∨ J.getD d 0 ≠ 0) : srcIdx fl d (dstIdx fl d J) = J := by
  by_cases hf : fl = 0
  · rw [dstIdx, srcIdx, if_pos hf, if_pos hf, lower, getD_set_self h, List.set_set, Nat.add_sub_cancel, set_getD_self]
  · rw [dstIdx, srcIdx, if_neg hf, if_neg hf, partner_partner h (h0.resolve_left hf)]

theorem dstIdx_srcIdx {fl d : Nat} {J : IVec} (h : d < J.length) (h0 : J.getD d 0 ≠ 0) : dstIdx fl d (srcIdx fl d J) = J := by
  by_cases hf : fl = 0
  · rw [dstIdx, srcIdx, if_pos hf, if_pos hf, lower, getD_set_self h, List.set_set, Nat.sub_add_cancel (by omega), set_getD_self]
  · rw [dstIdx, srcIdx, if_neg hf, if_neg hf, partner_partner h h0]

theorem dstIdx_ne_zero {fl d : Nat} {J : IVec} (h : d < J.length) (h0 : fl = 0 ∨ J.getD d 0 ≠ 0) : (dstIdx fl d J).getD d 0 ≠ 0 := by
  by_cases hf : fl = 0
  · rw [dstIdx, if_pos hf, getD_set_self h]; omega
  · rw [dstIdx, if_neg hf, partner_getD h]
    have := h0.resolve_left hf
    split_ifs <;> omega

theorem srcIdx_ne_zero {fl d : Nat} {J : IVec} (h : d < J.length) (h0 : J.getD d 0 ≠ 0) : fl = 0 ∨ (srcIdx fl d J).getD d 0 ≠ 0 := by
  by_cases hf : fl = 0
  · exact .inl hf
  · right
    rw [srcIdx, if_neg hf, partner_getD h]
    split_ifs <;> omega

variable {T : Type} [MatOps T α] [Stored T α] [Meaning T α] [LawfulMat T α] [LawfulStored T α]

/-- Where the elements of a column go. -/
noncomputable def colTgt (L : List IVec) (fl d c : Nat) : Option (Nat × (α → α)) :=
  open Classical in
  if (fl = 0 ∨ (L.getD c []).getD d 0 ≠ 0) ∧ dstIdx fl d (L.getD c []) ∈ L then
    some (L.idxOf (dstIdx fl d (L.getD c [])), moveVal fl d (dstIdx fl d (L.getD c [])))
  else none

omit [Stored T α] [Meaning T α] [LawfulMat T α] [LawfulStored T α] in
theorem varfdStepF_eq {s : IndexSet} {dim degree d fl : Nat} (hz : Sized s dim degree) {L : List IVec}
    (ok : IterOk s dim degree L) (hd : d < dim) (hsrc : ∀ J ∈ L, fl ≠ 0 → J.getD d 0 ≠ 0 → partner d J ∈ L) {it : Iter}
    (hit : it.reset = freshIter dim L) (R : T) (e : (Nat × Nat) × α) (hc : e.1.2 < L.length) :
    (colTgt (α := α) L fl d e.1.2 = none → varfdStepF it L d fl R e = .ok R) ∧
    ∀ id x, colTgt L fl d e.1.2 = some (id, x) → varfdStepF it L d fl R e = MatOps.set R e.1.1 id (x e.2) := by
  have hJ : InSet s dim degree (L.getD e.1.2 []) := (ok.mem _).1 (by simp [hc])
  have hJm : L.getD e.1.2 [] ∈ L := (ok.mem _).2 hJ
  have hle := entry_le hz hJ d
  have hdl : d < (L.getD e.1.2 []).length := by rw [inSet_length hJ]; exact hd
  rw [varfdStepF, rd_getD [] hc, Out.ok_bind, colTgt]
  obtain ⟨J, hJd⟩ : ∃ J, J = L.getD e.1.2 [] := ⟨_, rfl⟩
  rw [← hJd] at hJ hJm hle hdl ⊢
  rw [rd_getD 0 hdl, Out.ok_bind]
  by_cases hf : fl = 0
  · have hdst : dstIdx fl d J = J.set d (J.getD d 0 + 1) := by rw [dstIdx, if_pos hf]
    rw [if_pos hf, wrap32_of_lt hle, wr_of_lt hdl, Out.ok_bind, ← hdst]
    by_cases hm : dstIdx fl d J ∈ L
    · have hhas : it.has (dstIdx fl d J) = true := by
        rw [reset_has, hit]
        exact (ok.has _).2 ((ok.mem _).1 hm)
      have hix : it.index (dstIdx fl d J) = .ok (L.idxOf (dstIdx fl d J)) := by
        rw [reset_index, hit]
        exact ok.index_of_mem ((ok.mem _).1 hm)
      rw [if_pos ⟨.inl hf, hm⟩, if_neg (by rw [hhas]; simp), hix, Out.ok_bind]
      refine ⟨by simp, fun id x h => ?_⟩
      simp only [Option.some.injEq, Prod.mk.injEq] at h
      obtain ⟨rfl, rfl⟩ := h
      rw [moveVal, if_pos hf, hdst, getD_set_self hdl]
    · have hhas : it.has (dstIdx fl d J) = false := by
        rw [reset_has, hit, Bool.eq_false_iff]
        intro h
        exact hm ((ok.mem _).2 ((ok.has _).1 h))
      rw [if_neg (fun h => hm h.2), if_pos (by rw [hhas]; rfl)]
      exact ⟨fun _ => rfl, by simp⟩
  · rw [if_neg hf]
    by_cases h0 : J.getD d 0 = 0
    · rw [if_pos h0, if_neg (by tauto)]
      exact ⟨fun _ => rfl, by simp⟩
    · have hdst : dstIdx fl d J = partner d J := by rw [dstIdx, if_neg hf]
      have hm : partner d J ∈ L := hsrc J hJm hf h0
      rw [if_neg h0, if_pos ⟨.inr h0, by rw [hdst]; exact hm⟩, hdst]
      refine ⟨by simp, fun id x h => ?_⟩
      simp only [Option.some.injEq, Prod.mk.injEq] at h
      obtain ⟨rfl, rfl⟩ := h
      have e1 : (if J.getD d 0 % 2 = 0 then J.getD d 0 - 1 else wrap32 (J.getD d 0 + 1)) =
          if J.getD d 0 % 2 = 0 then J.getD d 0 - 1 else J.getD d 0 + 1 := by
        rw [wrap32_of_lt hle]
      have e2 : J.set d (if J.getD d 0 % 2 = 0 then J.getD d 0 - 1 else J.getD d 0 + 1) = partner d J := rfl
      dsimp only
      rw [e1, wr_of_lt hdl, Out.ok_bind, e2, reset_index, hit, ok.index_of_mem ((ok.mem _).1 hm), Out.ok_bind]
      rw [moveVal, if_neg hf, partner_getD hdl]
      by_cases he : J.getD d 0 % 2 = 0
      · rw [if_pos he, if_pos he, if_pos he, if_pos (by omega), wrap32_of_lt (by omega),
          show (J.getD d 0 - 1 + 1) / 2 = (J.getD d 0 + 0) / 2 by omega]
      · rw [if_neg he, if_neg he, if_neg he, if_neg (by omega), wrap32_of_lt hle,
          show (J.getD d 0 + 1 + 1) / 2 = (J.getD d 0 + 1) / 2 by omega]

/-- The derivative form, when the columns from which the columns are computed are in the set. -/
theorem varfdF_ok {s : IndexSet} {dim degree d fl : Nat} (hz : Sized s dim degree) {L : List IVec}
    (ok : IterOk s dim degree L) (hd : d < dim) (hsrc : ∀ J ∈ L, fl ≠ 0 → J.getD d 0 ≠ 0 → partner d J ∈ L) {A : T} {f : Nat → Nat → α}
    (hA : IsMat A L.length L.length f) :
    ∃ R : T, varfdF s dim degree d A fl = .ok R ∧ IsMat R L.length L.length (fun i j =>
      if (L.getD j []).getD d 0 = 0 then 0 else moveVal fl d (L.getD j []) (f i (L.idxOf (srcIdx fl d (L.getD j []))))) := by
  obtain ⟨it, ec, hit⟩ := collectIndices_ok ok
  have hpos : 1 ≤ L.length := by
    obtain ⟨t, ht⟩ := ok.runs.head
    rw [ht]; simp
  have hreset : (freshIter dim L).reset = freshIter dim L := freshIter_reset dim L
  have hlenJ : ∀ J ∈ L, d < J.length := fun J hJ => by rw [inSet_length ((ok.mem _).1 hJ)]; exact hd
  have hgd : ∀ c, c < L.length → L.getD c [] ∈ L := fun c hc => by simp [hc]
  have hsrc' : ∀ J ∈ L, J.getD d 0 ≠ 0 → srcIdx fl d J ∈ L := fun J hJ h0 => by
    by_cases hf : fl = 0
    · rw [srcIdx, if_pos hf]
      exact (ok.mem _).2 (inSet_set ((ok.mem _).1 hJ) (by omega))
    · rw [srcIdx, if_neg hf]
      exact hsrc J hJ hf h0
  have htgt : ∀ c id x, colTgt (α := α) L fl d c = some (id, x) → (fl = 0 ∨ (L.getD c []).getD d 0 ≠ 0) ∧ dstIdx fl d (L.getD c []) ∈ L ∧
      id = L.idxOf (dstIdx fl d (L.getD c [])) ∧ x = moveVal fl d (dstIdx fl d (L.getD c [])) := by
    intro c id x h
    rw [colTgt] at h
    split_ifs at h with hm
    simp only [Option.some.injEq, Prod.mk.injEq] at h
    exact ⟨hm.1, hm.2, h.1.symm, h.2.symm⟩
  obtain ⟨R, e, g, hg, h1, h2⟩ := applyColumns hA (colTgt L fl d)
    (by
      intro c id x _ h
      obtain ⟨-, hm, rfl, -⟩ := htgt c id x h
      exact List.idxOf_lt_length_iff.2 hm)
    (by
      intro c id x h
      obtain ⟨-, -, -, rfl⟩ := htgt c id x h
      exact moveVal_zero _ _ _)
    (by
      intro c c' id x x' hc hc' h h'
      obtain ⟨h0, hm, e1, -⟩ := htgt c id x h
      obtain ⟨h0', hm', e2, -⟩ := htgt c' id x' h'
      have e3 : dstIdx fl d (L.getD c []) = dstIdx fl d (L.getD c' []) := by
        have a1 := getElem?_idxOf' hm
        have a2 := getElem?_idxOf' hm'
        rw [← e1] at a1
        rw [← e2, a1] at a2
        exact Option.some.inj a2
      have e4 : L.getD c [] = L.getD c' [] := by
        rw [← srcIdx_dstIdx (hlenJ _ (hgd c hc)) h0, ← srcIdx_dstIdx (hlenJ _ (hgd c' hc')) h0', e3]
      refine getElem?_inj_idx ok.nodup (m := L.getD c []) ?_ ?_
      · simp [hc]
      · rw [e4]; simp [hc'])
    (varfdStepF it L d fl)
    (fun R e he ht => (varfdStepF_eq hz ok hd hsrc hit R e ((LawfulStored.stored hA).2.1 e he).2.1).1 ht)
    (fun R e id x he ht => (varfdStepF_eq hz ok hd hsrc hit R e ((LawfulStored.stored hA).2.1 e he).2.1).2 id x ht)
  refine ⟨R, ?_, LawfulMat.congr hg fun i j hi hj => ?_⟩
  · rw [varfdF, ok.iter, Out.ok_bind, hreset, LawfulMat.size1 hA, ec, Out.ok_bind]
    rw [LawfulMat.size2 hA hpos, Out.ok_bind]
    exact e
  · have hjm := hgd j hj
    have hidx : L.idxOf (L.getD j []) = j := idxOf_of_getElem? ok.nodup (by simp [hj])
    by_cases h0 : (L.getD j []).getD d 0 = 0
    · rw [if_pos h0, h2 i j]
      intro c x hc ht
      obtain ⟨h0', hm, rfl, -⟩ := htgt _ _ _ ht
      have : L.getD (L.idxOf (dstIdx fl d (L.getD c []))) [] = dstIdx fl d (L.getD c []) := by
        rw [List.getD_eq_getElem?_getD, getElem?_idxOf' hm]; rfl
      rw [this] at h0
      exact dstIdx_ne_zero (hlenJ _ (hgd c hc)) h0' h0
    · have hm := hsrc' _ hjm h0
      have hLc : L.getD (L.idxOf (srcIdx fl d (L.getD j []))) [] = srcIdx fl d (L.getD j []) := by
        rw [List.getD_eq_getElem?_getD, getElem?_idxOf' hm]; rfl
      rw [if_neg h0, h1 i j _ (moveVal fl d (L.getD j [])) hi (List.idxOf_lt_length_iff.2 hm)]
      rw [colTgt, hLc, dstIdx_srcIdx (hlenJ _ hjm) h0, if_pos ⟨srcIdx_ne_zero (hlenJ _ hjm) h0, hjm⟩, hidx]

/-- The factor of a column in the variant for nested vectors. -/
def srcFactorF (fl d : Nat) (J : IVec) : α :=
  if fl = 1 then Floats.ofNat (if J.getD d 0 % 2 = 0 then wrap32 (u32 - J.getD d 0 / 2) else (J.getD d 0 + 1) / 2)
  else Floats.sqrt (Floats.ofNat (J.getD d 0))

theorem varfdColumnF_ok {s : IndexSet} {dim degree d fl j : Nat} (hz : Sized s dim degree) {L : List IVec}
    (ok : IterOk s dim degree L) (hd : d < dim) {it : Iter} (hit : ItAt L dim j it) (hj : j < L.length) {A : DMat α}
    {f : Nat → Nat → α} (hA : IsMat A L.length L.length f)
    (hsrc : (L.getD j []).getD d 0 ≠ 0 → srcIdx fl d (L.getD j []) ∈ L) {R : DMat α} {g : Nat → Nat → α}
    (hR : IsMat R L.length L.length g) :
    ∃ R', varfdColumnF it d A fl j R = .ok R' ∧ IsMat R' L.length L.length (fun i k => if k = j ∧ (L.getD j []).getD d 0 ≠ 0 then
      srcFactorF fl d (L.getD j []) * f i (L.idxOf (srcIdx fl d (L.getD j []))) else g i k) := by
  obtain ⟨hm1, -⟩ := hit.pos _ (List.getElem?_eq_getElem hj)
  have hJe : L[j] = L.getD j [] := by simp [hj]
  rw [hJe] at hm1
  have hJ : InSet s dim degree (L.getD j []) := (ok.mem _).1 (by simp [hj])
  have hlen := inSet_length hJ
  have hle := entry_le hz hJ d
  have hdl : d < (L.getD j []).length := by omega
  obtain ⟨J, hJd⟩ : ∃ J, J = L.getD j [] := ⟨_, rfl⟩
  rw [← hJd] at hm1 hJ hlen hle hdl hsrc ⊢
  rw [varfdColumnF, hm1, rd_getD 0 hdl, Out.ok_bind]
  by_cases h0 : J.getD d 0 = 0
  · rw [if_pos h0]
    exact ⟨R, rfl, LawfulMat.congr hR fun i k _ _ => by rw [if_neg (fun h => h.2 h0)]⟩
  · rw [if_neg h0]
    have hmem := hsrc h0
    have e1 : (if fl = 0 then J.getD d 0 - 1 else if J.getD d 0 % 2 = 0 then J.getD d 0 - 1 else wrap32 (J.getD d 0 + 1)) =
        if fl = 0 then J.getD d 0 - 1 else if J.getD d 0 % 2 = 0 then J.getD d 0 - 1 else J.getD d 0 + 1 := by
      rw [wrap32_of_lt hle]
    have e2 : J.set d (if fl = 0 then J.getD d 0 - 1 else if J.getD d 0 % 2 = 0 then J.getD d 0 - 1 else J.getD d 0 + 1) =
        srcIdx fl d J := by
      rw [srcIdx, lower, partner]
      split_ifs <;> rfl
    rw [e1, wr_of_lt hdl, Out.ok_bind, e2, reset_index, hit.reset, ok.index_of_mem ((ok.mem _).1 hmem), Out.ok_bind]
    have hid := List.idxOf_lt_length_iff.2 hmem
    have hAl : A.length = L.length := hA.1
    have e3 : (if fl = 1 then (Floats.ofNat (if J.getD d 0 % 2 = 0 then
        wrap32 (u32 - wrap32 (J.getD d 0 + (if J.getD d 0 % 2 = 0 then 0 else 1)) / 2) else
        wrap32 (J.getD d 0 + (if J.getD d 0 % 2 = 0 then 0 else 1)) / 2) : α) else Floats.sqrt (Floats.ofNat (J.getD d 0))) =
        srcFactorF fl d J := by
      rw [srcFactorF, wrap32_of_lt (n := J.getD d 0 + _) (by split_ifs <;> omega)]
      by_cases he : J.getD d 0 % 2 = 0
      · simp only [if_pos he, Nat.add_zero]
      · simp only [if_neg he]
    simp only [e3]
    rw [hAl]
    obtain ⟨R', e, hR'⟩ := forRange_inv (n := L.length) (acc := R) (body := fun i results => do
        let row ← rd A i
        let x ← rd row (L.idxOf (srcIdx fl d J))
        MatOps.set results i j (srcFactorF fl d J * x))
      (fun t M => IsMat M L.length L.length (fun i k => if k = j ∧ i < t then
        srcFactorF fl d J * f i (L.idxOf (srcIdx fl d J)) else g i k))
      (LawfulMat.congr hR fun i k _ _ => by rw [if_neg (by omega)]) (by
        intro i M hi hM
        have hrow : i < A.length := by omega
        have hl : (A[i]).length = L.length := hA.2.1 _ (List.getElem_mem hrow)
        have hv := hA.2.2 i _ _ _ (List.getElem?_eq_getElem hrow) (List.getElem?_eq_getElem (by omega : L.idxOf (srcIdx fl d J) < A[i].length))
        rw [rd_of_lt hrow, Out.ok_bind, rd_of_lt (by omega), Out.ok_bind, hv]
        obtain ⟨M', e', hM'⟩ := LawfulMat.set hM hi hj (srcFactorF fl d J * f i (L.idxOf (srcIdx fl d J)))
        refine ⟨M', e', LawfulMat.congr hM' fun a b _ _ => ?_⟩
        by_cases hab : a = i ∧ b = j
        · rw [if_pos hab, if_pos ⟨hab.2, by omega⟩, hab.1]
        · rw [if_neg hab]
          by_cases hbj : b = j
          · have : a ≠ i := fun h => hab ⟨h, hbj⟩
            by_cases hai : a < i
            · rw [if_pos ⟨hbj, hai⟩, if_pos ⟨hbj, by omega⟩]
            · rw [if_neg (by omega), if_neg (by omega)]
          · rw [if_neg (by tauto), if_neg (by tauto)])
    refine ⟨R', e, LawfulMat.congr hR' fun a b ha _ => ?_⟩
    by_cases hb : b = j
    · rw [if_pos ⟨hb, ha⟩, if_pos ⟨hb, h0⟩]
    · rw [if_neg (by tauto), if_neg (by tauto)]

theorem varfd_matF_ok {s : IndexSet} {dim degree d fl : Nat} (hz : Sized s dim degree) {L : List IVec}
    (ok : IterOk s dim degree L) (hd : d < dim) {A : DMat α} {f : Nat → Nat → α} (hA : IsMat A L.length L.length f)
    (hsrc : ∀ J ∈ L, J.getD d 0 ≠ 0 → srcIdx fl d J ∈ L) :
    ∃ R, varfd_matF s dim degree d A fl = .ok R ∧ IsMat R L.length L.length (fun i j => if (L.getD j []).getD d 0 ≠ 0 then
      srcFactorF fl d (L.getD j []) * f i (L.idxOf (srcIdx fl d (L.getD j []))) else 0) := by
  have hAl : A.length = L.length := hA.1
  obtain ⟨t, ht⟩ := ok.runs.head
  obtain ⟨⟨it, R⟩, e, -, hR⟩ := forRange_inv (n := L.length)
    (acc := (freshIter dim L, List.replicate L.length (List.replicate L.length (0 : α)))) (body := fun j st => do
      let results ← varfdColumnF st.1 d A fl j st.2
      let m2 ← st.1.increment
      .ok (m2, results))
    (fun t st => ItAt L dim t st.1 ∧ IsMat st.2 L.length L.length (fun i j => if j < t ∧ (L.getD j []).getD d 0 ≠ 0 then
      srcFactorF fl d (L.getD j []) * f i (L.idxOf (srcIdx fl d (L.getD j []))) else 0))
    ⟨⟨freshIter_reset _ _, rfl, by
      intro m hm
      rw [ht] at hm
      simp only [List.getElem?_cons_zero, Option.some.injEq] at hm
      subst hm
      exact ⟨rfl, rfl⟩⟩,
      LawfulMat.congr (LawfulMat.construct (M := DMat α) L.length L.length) fun i j _ _ => by rw [if_neg (by omega)]⟩ (by
      rintro j ⟨it, M⟩ hj ⟨hi, hM⟩
      obtain ⟨M', e, hM'⟩ := varfdColumnF_ok hz ok hd hi hj hA (hsrc _ (by simp [hj])) hM
      obtain ⟨it', e', hi'⟩ := hi.increment ok hj
      refine ⟨(it', M'), ?_, hi', LawfulMat.congr hM' fun a b _ _ => ?_⟩
      · simp only at e
        simp only [e, e', Out.ok_bind]
      · by_cases hb : b = j
        · subst hb
          by_cases h0 : (L.getD b []).getD d 0 ≠ 0
          · rw [if_pos ⟨rfl, h0⟩, if_pos ⟨by omega, h0⟩]
          · rw [if_neg (by tauto), if_neg (by tauto), if_neg (by tauto)]
        · rw [if_neg (by tauto)]
          by_cases hbj : b < j
          · by_cases h0 : (L.getD b []).getD d 0 ≠ 0
            · rw [if_pos ⟨hbj, h0⟩, if_pos ⟨by omega, h0⟩]
            · rw [if_neg (by tauto), if_neg (by tauto)]
          · rw [if_neg (by omega), if_neg (by omega)])
  refine ⟨R, ?_, LawfulMat.congr hR fun i j _ hj => ?_⟩
  · rw [varfd_matF, ok.iter, Out.ok_bind, freshIter_reset]
    simp only [hAl]
    rw [e, Out.ok_bind]
  · by_cases h0 : (L.getD j []).getD d 0 ≠ 0
    · rw [if_pos ⟨hj, h0⟩, if_pos h0]
    · rw [if_neg (by tauto), if_neg h0]

end

/-! ## Rounding errors -/

section

variable {α : Type} [Doubles α] {val : α → ℝ} {u : ℝ}

theorem moveVal_hermite (A : AccurateD α val u) {d : Nat} {J : IVec} (h : J.getD d 0 < 2 ^ 32) (x : α) :
    Approx u 2 (val (moveVal 0 d J x)) (val x * √(J.getD d 0 : ℝ)) (|val x| * √(J.getD d 0 : ℝ)) := by
  have h1 := A.sqrt (Floats.ofNat (J.getD d 0)) (by rw [A.ofNat _ h]; positivity)
  rw [A.ofNat _ h] at h1
  have h2 : Approx u 1 (val (Floats.sqrt (Floats.ofNat (J.getD d 0) : α))) √(J.getD d 0 : ℝ) √(J.getD d 0 : ℝ) :=
    ⟨by rw [abs_of_nonneg (by positivity)], by rw [Spec.err, pow_one, add_sub_cancel_left]; exact h1⟩
  rw [moveVal, if_pos rfl]
  exact (Approx.exact A.nonneg 0 (val x)).mul A.nonneg h2 (A.mul _ _)

theorem moveVal_fourier (A : AccurateD α val u) {d fl : Nat} (hf : fl ≠ 0) {J : IVec} (h : J.getD d 0 + 1 < 2 ^ 32) (x : α) :
    Approx u 2 (val (moveVal fl d J x)) (val x * (signedWave d J : ℝ)) (|val x| * (((J.getD d 0 + 1) / 2 : ℕ) : ℝ)) := by
  have hs : val (if J.getD d 0 % 2 = 1 then 1 else -1 : α) = if J.getD d 0 % 2 = 1 then 1 else -1 := by
    split_ifs
    · exact A.one
    · rw [A.neg, A.one]
  have h1 := (Approx.exact A.nonneg 0 (val x)).mul A.nonneg (Approx.exact A.nonneg 0 (if J.getD d 0 % 2 = 1 then 1 else -1 : ℝ))
    (p := val (x * if J.getD d 0 % 2 = 1 then 1 else -1)) (by rw [← hs]; exact A.mul _ _)
  have h2 := h1.mul A.nonneg (Approx.exact A.nonneg 0 ((((J.getD d 0 + 1) / 2 : ℕ) : ℝ))) (p := val (moveVal fl d J x)) (by
    rw [moveVal, if_neg hf, ← A.ofNat ((J.getD d 0 + 1) / 2) (by omega)]
    exact A.mul _ _)
  have e1 : val x * (if J.getD d 0 % 2 = 1 then 1 else -1) * (((J.getD d 0 + 1) / 2 : ℕ) : ℝ) = val x * (signedWave d J : ℝ) := by
    rw [mul_assoc, signedWave]
    congr 1
    split_ifs with ho
    · rw [one_mul, Int.cast_natCast]
    · rw [neg_one_mul, Int.cast_neg, Int.cast_natCast, show (J.getD d 0 + 1) / 2 = J.getD d 0 / 2 by omega]
  have e2 : |val x| * |(if J.getD d 0 % 2 = 1 then 1 else -1 : ℝ)| * |(((J.getD d 0 + 1) / 2 : ℕ) : ℝ)| =
      |val x| * (((J.getD d 0 + 1) / 2 : ℕ) : ℝ) := by
    rw [Nat.abs_cast]
    split_ifs <;> simp
  rw [e1, e2] at h2
  exact h2

theorem srcFactorF_hermite (A : AccurateD α val u) {d : Nat} {J : IVec} (h : J.getD d 0 < 2 ^ 32) (x : α) :
    Approx u 2 (val (srcFactorF 0 d J * x)) (val x * √(J.getD d 0 : ℝ)) (|val x| * √(J.getD d 0 : ℝ)) := by
  have h1 := A.sqrt (Floats.ofNat (J.getD d 0)) (by rw [A.ofNat _ h]; positivity)
  rw [A.ofNat _ h] at h1
  have h2 : Approx u 1 (val (Floats.sqrt (Floats.ofNat (J.getD d 0) : α))) √(J.getD d 0 : ℝ) √(J.getD d 0 : ℝ) :=
    ⟨by rw [abs_of_nonneg (by positivity)], by rw [Spec.err, pow_one, add_sub_cancel_left]; exact h1⟩
  rw [srcFactorF, if_neg (by omega), mul_comm (val x), mul_comm |val x|]
  exact h2.mul A.nonneg (Approx.exact A.nonneg 0 (val x)) (A.mul _ _)

/-! ## The real numbers -/

theorem varfdF_real {T : Type} [MatOps T ℝ] [Stored T ℝ] : @varfdF ℝ realDoubles T _ _ = varfd (T := T) := by
  funext s dim degree direction var fl
  unfold varfdF varfd
  have : @varfdStepF ℝ realDoubles T _ = varfdStep (T := T) := by
    funext m mi dir f r e
    unfold varfdStepF varfdStep
    simp only [real_ofNat, real_sqrt]
  rw [this]

theorem varfd_matF_real : @varfd_matF ℝ realDoubles = varfd_mat := by
  funext s dim degree direction var fl
  unfold varfd_matF varfd_mat
  have : @varfdColumnF ℝ realDoubles = varfdColumn := by
    funext m dir v f j r
    unfold varfdColumnF varfdColumn
    simp only [real_ofNat, real_sqrt]
  rw [this]

end

end Hermipy
