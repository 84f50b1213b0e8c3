import Verif.Spec.Derivative
import Verif.Lemmas.Arith
import Verif.Lemmas.Line
import Verif.Lemmas.Transform
import Verif.Lemmas.TransformOk
import Verif.Model.Varf

/-! # The derivative form -/

namespace Hermipy

open Spec

/-- Stored elements moved to other columns: `tgt c` is the column to which column `c` goes and its factor. -/
theorem moveColumns {T : Type} [MatOps T ℝ] [Stored T ℝ] [Meaning T ℝ] [LawfulMat T ℝ] [LawfulStored T ℝ] {A : T} {n1 n2 : Nat}
    {f : Nat → Nat → ℝ} (hA : IsMat A n1 n2 f) (tgt : Nat → Option (Nat × ℝ))
    (hlt : ∀ c id x, c < n2 → tgt c = some (id, x) → id < n2)
    (hinj : ∀ c c' id x x', c < n2 → c' < n2 → tgt c = some (id, x) → tgt c' = some (id, x') → c = c')
    (step : T → (Nat × Nat) × ℝ → Out T)
    (hnone : ∀ R (e : (Nat × Nat) × ℝ), e ∈ Stored.stored A → tgt e.1.2 = none → step R e = .ok R)
    (hsome : ∀ R (e : (Nat × Nat) × ℝ) id x, e ∈ Stored.stored A → tgt e.1.2 = some (id, x) →
      step R e = MatOps.set R e.1.1 id (e.2 * x)) :
    ∃ R : T, (Stored.stored A).foldlM step (MatOps.construct (M := T) n1 n2) = .ok R ∧ ∃ g, IsMat R n1 n2 g ∧
      (∀ i j c x, i < n1 → c < n2 → tgt c = some (j, x) → g i j = f i c * x) ∧
      (∀ i j, (∀ c x, c < n2 → tgt c ≠ some (j, x)) → g i j = 0) := by
  obtain ⟨hnd, hval, hzero⟩ := LawfulStored.stored hA
  obtain ⟨R, e, g, hg, h1, h2⟩ := foldlM_inv (f := step) (fun k R => ∃ g, IsMat R n1 n2 g ∧
      (∀ i j c x, i < n1 → c < n2 → tgt c = some (j, x) →
        ((∃ e ∈ (Stored.stored A).take k, e.1 = (i, c)) → g i j = f i c * x) ∧
        ((∀ e ∈ (Stored.stored A).take k, e.1 ≠ (i, c)) → g i j = 0)) ∧
      (∀ i j, (∀ c x, c < n2 → tgt c ≠ some (j, x)) → g i j = 0)) (Stored.stored A) (MatOps.construct (M := T) n1 n2)
    ⟨_, LawfulMat.construct n1 n2, by simp, by simp⟩ (by
      intro k e R hk ⟨g, hg, h1, h2⟩
      have he := List.mem_of_getElem? hk
      obtain ⟨b1, b2, b3⟩ := hval e he
      have htake : (Stored.stored A).take (k + 1) = (Stored.stored A).take k ++ [e] := by
        rw [List.take_add_one, hk]; rfl
      cases ht : tgt e.1.2 with
      | none =>
        refine ⟨R, hnone R e he ht, g, hg, ?_, h2⟩
        intro i j c x hi hc hx
        have hne : e.1 ≠ (i, c) := by
          intro hh
          rw [hh] at ht
          simp [hx] at ht
        obtain ⟨p1, p2⟩ := h1 i j c x hi hc hx
        rw [htake]
        constructor
        · rintro ⟨e', he', hh⟩
          rcases List.mem_append.1 he' with he' | he'
          · exact p1 ⟨e', he', hh⟩
          · rw [List.mem_singleton.1 he'] at hh
            exact absurd hh hne
        · intro hh
          exact p2 fun e' he' => hh e' (List.mem_append.2 (.inl he'))
      | some y =>
        obtain ⟨id, y⟩ := y
        obtain ⟨R', e', hR'⟩ := LawfulMat.set hg b1 (hlt _ _ _ b2 ht) (e.2 * y)
        refine ⟨R', by rw [hsome R e id y he ht, e'], _, hR', ?_, ?_⟩
        · intro i j c x hi hc hx
          obtain ⟨p1, p2⟩ := h1 i j c x hi hc hx
          rw [htake]
          by_cases hh : i = e.1.1 ∧ j = id
          · obtain ⟨hi', rfl⟩ := hh
            have hcc := hinj c e.1.2 j x y hc b2 hx ht
            rw [if_pos ⟨hi', rfl⟩]
            have hxy : x = y := by
              rw [hcc, ht] at hx
              simpa using hx.symm
            constructor
            · intro _
              rw [b3, hi', hcc, hxy]
            · intro hne
              refine absurd ?_ (hne e (by simp))
              rw [hi', hcc]
          · rw [if_neg hh]
            have hne : e.1 ≠ (i, c) := by
              intro hc'
              apply hh
              rw [hc'] at ht ⊢
              rw [hx] at ht
              simp only [Option.some.injEq, Prod.mk.injEq] at ht
              exact ⟨rfl, ht.1⟩
            constructor
            · rintro ⟨e', he', hh⟩
              rcases List.mem_append.1 he' with he' | he'
              · exact p1 ⟨e', he', hh⟩
              · rw [List.mem_singleton.1 he'] at hh
                exact absurd hh hne
            · intro hh
              exact p2 fun e' he' => hh e' (List.mem_append.2 (.inl he'))
        · intro i j hj
          rw [if_neg]
          · exact h2 i j hj
          · rintro ⟨-, rfl⟩
            exact hj _ _ b2 ht)
  refine ⟨R, e, g, hg, ?_, h2⟩
  intro i j c x hi hc hx
  obtain ⟨p1, p2⟩ := h1 i j c x hi hc hx
  rw [List.take_length] at p1 p2
  by_cases hst : ∃ e ∈ Stored.stored A, e.1 = (i, c)
  · exact p1 hst
  · push Not at hst
    rw [p2 hst, hzero i c hi hc hst, zero_mul]

theorem collectIndices_ok {s : IndexSet} {dim degree : Nat} {L : List IVec} (ok : IterOk s dim degree L) :
    ∃ it, collectIndices L.length (freshIter dim L) = .ok (it, L) ∧ it.reset = freshIter dim L := by
  obtain ⟨it, a, e, hr, ha⟩ := ok.countLoop (acc := ([] : List IVec)) (body := fun _ m acc => .ok (acc ++ [m]))
    (fun k a => a = L.take k) (by simp) (by
      intro i m a hi ha
      refine ⟨_, rfl, ?_⟩
      rw [ha, List.take_add_one, hi]
      rfl)
  rw [List.take_length] at ha
  exact ⟨it, by rw [collectIndices, e, ha], hr⟩

/-- `has` and `index` do not depend on the state of the iteration. -/
theorem reset_has (it : Iter) (m : IVec) : it.has m = it.reset.has m := rfl
theorem reset_index (it : Iter) (m : IVec) : it.index m = it.reset.index m := rfl

theorem inSet_below {s : IndexSet} {dim degree : Nat} {m m' : IVec} (h : InSet s dim degree m) (hl : m'.length = m.length)
    (hle : ∀ k (h1 : k < m'.length) (h2 : k < m.length), m'[k] ≤ m[k]) : InSet s dim degree m' := by
  have hf : List.Forall₂ (· ≤ ·) m' m := List.forall₂_iff_get.2 ⟨hl, fun i h1 h2 => hle i h1 h2⟩
  have hlen := inSet_length h
  have hsum : m'.sum ≤ m.sum := hf.sum_le_sum
  have hprod : (m'.map (max 1)).prod ≤ (m.map (max 1)).prod := by
    apply List.Forall₂.prod_le_prod'
    rw [List.forall₂_map_left_iff, List.forall₂_map_right_iff]
    exact hf.imp fun a b hab => max_le_max_left _ hab
  cases s
  · exact ⟨by omega, hsum.trans h.2⟩
  · refine ⟨by omega, fun x hx => ?_⟩
    obtain ⟨k, hk, rfl⟩ := List.getElem_of_mem hx
    exact (hle k hk (by omega)).trans (h.2 _ (List.getElem_mem _))
  · exact ⟨by omega, hprod.trans h.2⟩
  · exact ⟨by omega, hprod.trans h.2⟩
  · exact ⟨by omega, fun i hi => (hle i hi (by omega)).trans (h.2 i (by omega))⟩

theorem inSet_set {s : IndexSet} {dim degree d v : Nat} {m : IVec} (h : InSet s dim degree m) (hv : v ≤ m.getD d 0) :
    InSet s dim degree (m.set d v) := by
  refine inSet_below h (by simp) fun k h1 h2 => ?_
  rw [List.getElem_set]
  split_ifs with hk
  · subst hk
    simpa [h2] using hv
  · exact le_rfl

theorem getD_set_self {m : IVec} {d v : Nat} (hd : d < m.length) : (m.set d v).getD d 0 = v := by
  simp [hd]

theorem set_getD_self (m : IVec) (d : Nat) : m.set d (m.getD d 0) = m := by
  by_cases hd : d < m.length
  · simp [hd]
  · rw [List.set_eq_of_length_le (by omega)]

theorem getElem?_inj_idx {L : List IVec} (hn : L.Nodup) {a b : Nat} {m : IVec} (ha : L[a]? = some m) (hb : L[b]? = some m) : a = b := by
  rw [← idxOf_of_getElem? hn ha, ← idxOf_of_getElem? hn hb]

section

variable {T : Type} [MatOps T ℝ] [Stored T ℝ] [Meaning T ℝ] [LawfulMat T ℝ] [LawfulStored T ℝ]

theorem entry_le {s : IndexSet} {dim degree : Nat} (hz : Sized s dim degree) {m : IVec} (hm : InSet s dim degree m) (d : Nat) :
    m.getD d 0 + 1 < u32 := by
  rcases Nat.eq_zero_or_pos degree with rfl | hd
  · have hm' := inSet_mono (Nat.zero_le 1) hm
    have h1 := inSet_le (by simp) hm'
    have : m.getD d 0 ≤ 1 := by
      by_cases hd : d < m.length
      · rw [List.getD_eq_getElem?_getD, List.getElem?_eq_getElem hd]
        exact h1 _ (List.getElem_mem _)
      · simp [hd]
    simp only [u32]
    omega
  · have h1 := inSet_le (fun _ => hd) hm
    have h2 := hz.succ_degree_lt
    have : m.getD d 0 ≤ degree := by
      by_cases hd : d < m.length
      · rw [List.getD_eq_getElem?_getD, List.getElem?_eq_getElem hd]
        exact h1 _ (List.getElem_mem _)
      · simp [hd]
    omega

theorem wrap32_of_lt {n : Nat} (h : n < u32) : wrap32 n = n := Nat.mod_eq_of_lt h

/-- The derivative form in a Hermite direction. -/
theorem varfd_hermite_ok {s : IndexSet} {dim degree d : Nat} (hz : Sized s dim degree) {L : List IVec}
    (ok : IterOk s dim degree L) (hd : d < dim) {A : T} {f : Nat → Nat → ℝ} (hA : IsMat A L.length L.length f) :
    ∃ R : T, varfd s dim degree d A 0 = .ok R ∧ IsMat R L.length L.length (fun i j =>
      √((L.getD j []).getD d 0 : ℝ) * f i (L.idxOf (lower d (L.getD j [])))) := by
  obtain ⟨it, ec, hit⟩ := collectIndices_ok ok
  have hpos : 1 ≤ L.length := by
    obtain ⟨t, ht⟩ := ok.runs.head
    rw [ht]; simp
  have hreset : (freshIter dim L).reset = freshIter dim L := freshIter_reset dim L
  have hget : ∀ c, c < L.length → rd L c = .ok (L.getD c []) ∧ InSet s dim degree (L.getD c []) ∧ (L.getD c []).length = dim := by
    intro c hc
    have hm : InSet s dim degree (L.getD c []) := (ok.mem _).1 (by simp [hc])
    refine ⟨?_, hm, inSet_length hm⟩
    rw [rd_of_lt hc]
    simp [hc]
  obtain ⟨up, hupd⟩ : ∃ up : IVec → IVec, up = fun J => J.set d (J.getD d 0 + 1) := ⟨_, rfl⟩
  let tgt : Nat → Option (Nat × ℝ) := fun c =>
    if up (L.getD c []) ∈ L then some (L.idxOf (up (L.getD c [])), √((((L.getD c []).getD d 0 + 1 : Nat)) : ℝ)) else none
  have htgt : ∀ c id x, tgt c = some (id, x) → up (L.getD c []) ∈ L ∧ id = L.idxOf (up (L.getD c [])) ∧
      x = √((((L.getD c []).getD d 0 + 1 : Nat)) : ℝ) := by
    intro c id x h
    simp only [tgt] at h
    split_ifs at h with hm
    simp only [Option.some.injEq, Prod.mk.injEq] at h
    exact ⟨hm, h.1.symm, h.2.symm⟩
  have hdown : ∀ J : IVec, d < J.length → (up J).set d ((up J).getD d 0 - 1) = J := by
    intro J hJ
    simp only [hupd]
    rw [getD_set_self hJ, List.set_set, Nat.add_sub_cancel, set_getD_self]
  obtain ⟨R, e, g, hg, h1, h2⟩ := moveColumns hA tgt
    (by
      intro c id x _ h
      obtain ⟨hm, rfl, -⟩ := htgt c id x h
      exact List.idxOf_lt_length_iff.2 hm)
    (by
      intro c c' id x x' hc hc' h h'
      obtain ⟨hm, e1, -⟩ := htgt c id x h
      obtain ⟨hm', e2, -⟩ := htgt c' id x' h'
      have e3 : up (L.getD c []) = up (L.getD c' []) := by
        have a1 := getElem?_idxOf' hm
        have a2 := getElem?_idxOf' hm'
        rw [← e1] at a1
        rw [← e2, a1] at a2
        exact Option.some.inj a2
      have e4 : L.getD c [] = L.getD c' [] := by
        have a1 := hdown (L.getD c []) (by rw [(hget c hc).2.2]; exact hd)
        have a2 := hdown (L.getD c' []) (by rw [(hget c' hc').2.2]; exact hd)
        rw [← a1, ← a2, e3]
      refine getElem?_inj_idx ok.nodup (m := L.getD c []) ?_ ?_
      · simp [hc]
      · rw [e4]; simp [hc'])
    (varfdStep it L d 0)
    (by
      intro R e he ht
      have hc := ((LawfulStored.stored hA).2.1 e he).2.1
      obtain ⟨r1, r2, r3⟩ := hget _ hc
      have hnm : up (L.getD e.1.2 []) ∉ L := by
        intro hm
        simp only [tgt, if_pos hm] at ht
        cases ht
      have hmd : rd (L.getD e.1.2 []) d = .ok ((L.getD e.1.2 []).getD d 0) := rd_getD 0 (by rw [r3]; exact hd)
      have hhas : it.has (up (L.getD e.1.2 [])) = false := by
        rw [reset_has, hit, Bool.eq_false_iff]
        intro h
        exact hnm ((ok.mem _).2 ((ok.has _).1 h))
      rw [varfdStep, r1, Out.ok_bind, hmd, Out.ok_bind, if_pos rfl, wrap32_of_lt (entry_le hz r2 d),
        wr_of_lt (by rw [r3]; exact hd), Out.ok_bind]
      rw [if_pos (by rw [hupd] at hhas; simp only at hhas; rw [hhas]; rfl)])
    (by
      intro R e id x he ht
      have hc := ((LawfulStored.stored hA).2.1 e he).2.1
      obtain ⟨r1, r2, r3⟩ := hget _ hc
      obtain ⟨hm, rfl, rfl⟩ := htgt _ _ _ ht
      have hmd : rd (L.getD e.1.2 []) d = .ok ((L.getD e.1.2 []).getD d 0) := rd_getD 0 (by rw [r3]; exact hd)
      have hhas : it.has (up (L.getD e.1.2 [])) = true := by
        rw [reset_has, hit]
        exact (ok.has _).2 ((ok.mem _).1 hm)
      have hix : it.index (up (L.getD e.1.2 [])) = .ok (L.idxOf (up (L.getD e.1.2 []))) := by
        rw [reset_index, hit]
        exact ok.index_of_mem ((ok.mem _).1 hm)
      rw [varfdStep, r1, Out.ok_bind, hmd, Out.ok_bind, if_pos rfl, wrap32_of_lt (entry_le hz r2 d),
        wr_of_lt (by rw [r3]; exact hd), Out.ok_bind]
      rw [if_neg (by rw [hupd] at hhas; simp only at hhas; rw [hhas]; simp)]
      rw [hupd] at hix ⊢
      simp only at hix ⊢
      rw [hix, Out.ok_bind])
  refine ⟨R, ?_, LawfulMat.congr hg fun i j hi hj => ?_⟩
  · rw [varfd, ok.iter, Out.ok_bind, hreset, LawfulMat.size1 hA, ec, Out.ok_bind]
    rw [LawfulMat.size2 hA hpos, Out.ok_bind]
    exact e
  · obtain ⟨-, hJ, hJl⟩ := hget j hj
    by_cases h0 : (L.getD j []).getD d 0 = 0
    · rw [h0, h2 i j]
      · simp
      · intro c x hc ht
        obtain ⟨hm, rfl, -⟩ := htgt _ _ _ ht
        have a1 := getElem?_idxOf' hm
        have : L.getD (L.idxOf (up (L.getD c []))) [] = up (L.getD c []) := by
          rw [List.getD_eq_getElem?_getD, a1]; rfl
        rw [this] at h0
        simp only [hupd] at h0
        rw [getD_set_self (by rw [(hget c hc).2.2]; exact hd)] at h0
        omega
    · have hlow : InSet s dim degree (lower d (L.getD j [])) := inSet_set hJ (by omega)
      have hmem := (ok.mem _).2 hlow
      have hc := List.idxOf_lt_length_iff.2 hmem
      have hLc : L.getD (L.idxOf (lower d (L.getD j []))) [] = lower d (L.getD j []) := by
        rw [List.getD_eq_getElem?_getD, getElem?_idxOf' hmem]; rfl
      have hup : up (lower d (L.getD j [])) = L.getD j [] := by
        simp only [hupd, lower]
        rw [getD_set_self (by rw [hJl]; exact hd), List.set_set, Nat.sub_add_cancel (by omega), set_getD_self]
      have hjm : L.getD j [] ∈ L := (ok.mem _).2 hJ
      have hidx : L.idxOf (L.getD j []) = j := idxOf_of_getElem? ok.nodup (by simp [hj])
      rw [h1 i j _ (√((L.getD j []).getD d 0 : ℝ)) hi hc]
      · rw [mul_comm]
      · simp only [tgt]
        rw [hLc, hup, if_pos hjm, hidx]
        simp only [lower]
        rw [getD_set_self (by rw [hJl]; exact hd), Nat.sub_add_cancel (by omega)]

theorem partner_length (d : Nat) (J : IVec) : (partner d J).length = J.length := by simp [partner]

theorem partner_getD {d : Nat} {J : IVec} (h : d < J.length) :
    (partner d J).getD d 0 = if J.getD d 0 % 2 = 0 then J.getD d 0 - 1 else J.getD d 0 + 1 := getD_set_self h

theorem partner_partner {d : Nat} {J : IVec} (h : d < J.length) (h0 : J.getD d 0 ≠ 0) : partner d (partner d J) = J := by
  have e : partner d (partner d J) = (partner d J).set d
      (if (partner d J).getD d 0 % 2 = 0 then (partner d J).getD d 0 - 1 else (partner d J).getD d 0 + 1) := rfl
  rw [e, partner_getD h]
  rw [partner, List.set_set]
  conv_rhs => rw [← set_getD_self J d]
  congr 1
  split_ifs <;> omega

theorem partner_mem {s : IndexSet} {dim degree d : Nat} {J : IVec} (hJ : InSet s dim degree J) (he : J.getD d 0 % 2 = 0) :
    InSet s dim degree (partner d J) := by
  rw [partner, if_pos he]
  exact inSet_set hJ (by omega)

omit [Stored T ℝ] [Meaning T ℝ] [LawfulMat T ℝ] [LawfulStored T ℝ] in
/-- One step of the loop in a Fourier direction. -/
theorem varfd_fourier_step {s : IndexSet} {dim degree d fl : Nat} (hfl : fl ≠ 0) (hz : Sized s dim degree) {L : List IVec}
    (ok : IterOk s dim degree L) (hd : d < dim) {it : Iter} (hit : it.reset = freshIter dim L) (R : T) {r c : Nat} {v : ℝ}
    (hc : c < L.length) : varfdStep it L d fl R ((r, c), v) =
      if (L.getD c []).getD d 0 = 0 then .ok R
      else if partner d (L.getD c []) ∈ L then
        MatOps.set R r (L.idxOf (partner d (L.getD c []))) (v * -(signedWave d (L.getD c []) : ℝ))
      else .throws := by
  have hJ : InSet s dim degree (L.getD c []) := (ok.mem _).1 (by simp [hc])
  have hlen := inSet_length hJ
  have hle := entry_le hz hJ d
  have hdl : d < (L.getD c []).length := by omega
  obtain ⟨J, hJd⟩ : ∃ J, J = L.getD c [] := ⟨_, rfl⟩
  rw [varfdStep, rd_getD [] hc, Out.ok_bind, ← hJd]
  rw [← hJd] at hdl hle hJ
  rw [rd_getD 0 hdl, Out.ok_bind, if_neg hfl]
  by_cases h0 : J.getD d 0 = 0
  · rw [if_pos h0, if_pos h0]
  · rw [if_neg h0, if_neg h0]
    dsimp only
    have e1 : (if J.getD d 0 % 2 = 0 then J.getD d 0 - 1 else wrap32 (J.getD d 0 + 1)) =
        if J.getD d 0 % 2 = 0 then J.getD d 0 - 1 else J.getD d 0 + 1 := by
      split_ifs
      · rfl
      · exact wrap32_of_lt hle
    rw [e1, wr_of_lt hdl, Out.ok_bind]
    have e2 : J.set d (if J.getD d 0 % 2 = 0 then J.getD d 0 - 1 else J.getD d 0 + 1) = partner d J := rfl
    rw [e2, reset_index, hit]
    by_cases hm : partner d J ∈ L
    · rw [if_pos hm, ok.index_of_mem ((ok.mem _).1 hm), Out.ok_bind]
      congr 1
      rw [mul_assoc]
      congr 1
      rw [signedWave]
      by_cases he : J.getD d 0 % 2 = 0
      · rw [if_pos he, if_pos he, if_neg (by omega), wrap32_of_lt (by omega), Int.cast_neg, neg_neg, one_mul, Int.cast_natCast, Nat.add_zero]
      · rw [if_neg he, if_neg he, if_pos (by omega), wrap32_of_lt hle, neg_one_mul, Int.cast_natCast]
    · rw [if_neg hm, (freshIter_index_throws ok.nodup _).2 hm]
      rfl

/-- The derivative form in a Fourier direction, when the partners of the stored columns are in the set. -/
theorem varfd_fourier_ok {s : IndexSet} {dim degree d fl : Nat} (hfl : fl ≠ 0) (hz : Sized s dim degree) {L : List IVec}
    (ok : IterOk s dim degree L) (hd : d < dim) {A : T} {f : Nat → Nat → ℝ} (hA : IsMat A L.length L.length f)
    (hpart : ∀ e ∈ Stored.stored A, (L.getD e.1.2 []).getD d 0 % 2 = 1 → partner d (L.getD e.1.2 []) ∈ L) :
    ∃ R : T, varfd s dim degree d A fl = .ok R ∧ IsMat R L.length L.length (fun i j =>
      (signedWave d (L.getD j []) : ℝ) *
        if partner d (L.getD j []) ∈ L then f i (L.idxOf (partner d (L.getD j []))) else 0) := by
  obtain ⟨it, ec, hit⟩ := collectIndices_ok ok
  have hpos : 1 ≤ L.length := by
    obtain ⟨t, ht⟩ := ok.runs.head
    rw [ht]; simp
  have hreset : (freshIter dim L).reset = freshIter dim L := freshIter_reset dim L
  have hget : ∀ c, c < L.length → InSet s dim degree (L.getD c []) ∧ d < (L.getD c []).length := by
    intro c hc
    have hm : InSet s dim degree (L.getD c []) := (ok.mem _).1 (by simp [hc])
    exact ⟨hm, by rw [inSet_length hm]; exact hd⟩
  let tgt : Nat → Option (Nat × ℝ) := fun c =>
    if (L.getD c []).getD d 0 ≠ 0 ∧ partner d (L.getD c []) ∈ L then
      some (L.idxOf (partner d (L.getD c [])), -(signedWave d (L.getD c []) : ℝ)) else none
  have htgt : ∀ c id x, tgt c = some (id, x) → (L.getD c []).getD d 0 ≠ 0 ∧ partner d (L.getD c []) ∈ L ∧
      id = L.idxOf (partner d (L.getD c [])) ∧ x = -(signedWave d (L.getD c []) : ℝ) := by
    intro c id x h
    simp only [tgt] at h
    split_ifs at h with hm
    simp only [Option.some.injEq, Prod.mk.injEq] at h
    exact ⟨hm.1, hm.2, h.1.symm, h.2.symm⟩
  obtain ⟨R, e, g, hg, h1, h2⟩ := moveColumns hA tgt
    (by
      intro c id x _ h
      obtain ⟨-, hm, rfl, -⟩ := htgt c id x h
      exact List.idxOf_lt_length_iff.2 hm)
    (by
      intro c c' id x x' hc hc' h h'
      obtain ⟨h0, hm, e1, -⟩ := htgt c id x h
      obtain ⟨h0', hm', e2, -⟩ := htgt c' id x' h'
      have e3 : partner d (L.getD c []) = partner d (L.getD c' []) := by
        have a1 := getElem?_idxOf' hm
        have a2 := getElem?_idxOf' hm'
        rw [← e1] at a1
        rw [← e2, a1] at a2
        exact Option.some.inj a2
      have e4 : L.getD c [] = L.getD c' [] := by
        have a1 := partner_partner (hget c hc).2 h0
        have a2 := partner_partner (hget c' hc').2 h0'
        rw [← a1, ← a2, e3]
      refine getElem?_inj_idx ok.nodup (m := L.getD c []) ?_ ?_
      · simp [hc]
      · rw [e4]; simp [hc'])
    (varfdStep it L d fl)
    (fun R e he ht => by
      have hc := ((LawfulStored.stored hA).2.1 e he).2.1
      refine (varfd_fourier_step hfl hz ok hd hit R hc).trans ?_
      by_cases h0 : (L.getD e.1.2 []).getD d 0 = 0
      · rw [if_pos h0]
      · exfalso
        have hm : partner d (L.getD e.1.2 []) ∈ L := by
          by_cases hev : (L.getD e.1.2 []).getD d 0 % 2 = 0
          · exact (ok.mem _).2 (partner_mem (hget _ hc).1 hev)
          · exact hpart e he (by omega)
        simp only [tgt, if_pos (And.intro h0 hm)] at ht
        cases ht)
    (fun R e id x he ht => by
      have hc := ((LawfulStored.stored hA).2.1 e he).2.1
      obtain ⟨h0, hm, rfl, rfl⟩ := htgt _ _ _ ht
      refine (varfd_fourier_step hfl hz ok hd hit R hc).trans ?_
      rw [if_neg h0, if_pos hm])
  refine ⟨R, ?_, LawfulMat.congr hg fun i j hi hj => ?_⟩
  · rw [varfd, ok.iter, Out.ok_bind, hreset, LawfulMat.size1 hA, ec, Out.ok_bind]
    rw [LawfulMat.size2 hA hpos, Out.ok_bind]
    exact e
  · obtain ⟨hJ, hJl⟩ := hget j hj
    have hjm : L.getD j [] ∈ L := (ok.mem _).2 hJ
    have hidx : L.idxOf (L.getD j []) = j := idxOf_of_getElem? ok.nodup (by simp [hj])
    by_cases hp : (L.getD j []).getD d 0 ≠ 0 ∧ partner d (L.getD j []) ∈ L
    · obtain ⟨h0, hm⟩ := hp
      have hc := List.idxOf_lt_length_iff.2 hm
      have hLc : L.getD (L.idxOf (partner d (L.getD j []))) [] = partner d (L.getD j []) := by
        rw [List.getD_eq_getElem?_getD, getElem?_idxOf' hm]; rfl
      have hpd := partner_getD hJl
      have hsw : -(signedWave d (partner d (L.getD j [])) : ℤ) = signedWave d (L.getD j []) := by
        rw [signedWave, signedWave, hpd]
        by_cases he : (L.getD j []).getD d 0 % 2 = 0
        · rw [if_pos he, if_pos (by omega), if_neg (by omega), show (L.getD j []).getD d 0 - 1 + 1 = (L.getD j []).getD d 0 by omega]
        · rw [if_neg he, if_neg (by omega), if_pos (by omega), neg_neg]
      rw [if_pos hm, h1 i j _ (signedWave d (L.getD j []) : ℝ) hi hc, mul_comm]
      simp only [tgt]
      rw [hLc, partner_partner hJl h0, if_pos ⟨by rw [hpd]; split_ifs <;> omega, hjm⟩, hidx, ← hsw]
      push_cast
      rfl
    · rw [h2 i j]
      · by_cases h0 : (L.getD j []).getD d 0 = 0
        · have : signedWave d (L.getD j []) = 0 := by rw [signedWave, h0]; rfl
          rw [this]
          simp
        · rw [if_neg (fun hm => hp ⟨h0, hm⟩), mul_zero]
      · intro c x hc ht
        obtain ⟨h0, hm, rfl, -⟩ := htgt _ _ _ ht
        have : L.getD (L.idxOf (partner d (L.getD c []))) [] = partner d (L.getD c []) := by
          rw [List.getD_eq_getElem?_getD, getElem?_idxOf' hm]; rfl
        rw [this, partner_partner (hget c hc).2 h0, partner_getD (hget c hc).2] at hp
        apply hp
        refine ⟨?_, (ok.mem _).2 (hget c hc).1⟩
        split_ifs <;> omega

theorem foldlM_throws {σ τ : Type} {f : σ → τ → Out σ} (P : σ → Prop) : ∀ (l : List τ) (a : σ), P a →
    (∀ a x, P a → x ∈ l → (∃ a', f a x = .ok a' ∧ P a') ∨ f a x = .throws) → (∃ x ∈ l, ∀ a, P a → f a x = .throws) →
    l.foldlM f a = .throws
  | [], _, _, _, h => by obtain ⟨x, hx, -⟩ := h; simp at hx
  | y :: l, a, ha, hs, ⟨x, hx, hth⟩ => by
    rw [List.foldlM_cons]
    rcases hs a y ha (by simp) with ⟨a', e, ha'⟩ | e
    · rw [e]
      refine foldlM_throws P l a' ha' (fun a x hP hx => hs a x hP (by simp [hx])) ⟨x, ?_, hth⟩
      rcases List.mem_cons.1 hx with rfl | hx
      · rw [hth a ha] at e
        cases e
      · exact hx
    · rw [e]; rfl

/-- The derivative form in a Fourier direction, when the partner of some stored column is not in the set. -/
theorem varfd_fourier_throws {s : IndexSet} {dim degree d fl : Nat} (hfl : fl ≠ 0) (hz : Sized s dim degree) {L : List IVec}
    (ok : IterOk s dim degree L) (hd : d < dim) {A : T} {f : Nat → Nat → ℝ} (hA : IsMat A L.length L.length f)
    (hpart : ∃ e ∈ Stored.stored A, (L.getD e.1.2 []).getD d 0 % 2 = 1 ∧ partner d (L.getD e.1.2 []) ∉ L) :
    varfd s dim degree d A fl = .throws := by
  obtain ⟨it, ec, hit⟩ := collectIndices_ok ok
  have hpos : 1 ≤ L.length := by
    obtain ⟨t, ht⟩ := ok.runs.head
    rw [ht]; simp
  have hreset : (freshIter dim L).reset = freshIter dim L := freshIter_reset dim L
  rw [varfd, ok.iter, Out.ok_bind, hreset, LawfulMat.size1 hA, ec, Out.ok_bind]
  rw [LawfulMat.size2 hA hpos, Out.ok_bind]
  refine foldlM_throws (fun R => ∃ g, IsMat R L.length L.length g) _ _ ⟨_, LawfulMat.construct _ _⟩ ?_ ?_
  · intro R e hR he
    obtain ⟨b1, b2, b3⟩ := (LawfulStored.stored hA).2.1 e he
    rw [varfd_fourier_step hfl hz ok hd hit R b2]
    split_ifs with h0 hm
    · exact .inl ⟨R, rfl, hR⟩
    · obtain ⟨g, hg⟩ := hR
      obtain ⟨R', e', hR'⟩ := LawfulMat.set hg b1 (List.idxOf_lt_length_iff.2 hm) (e.2 * -(signedWave d (L.getD e.1.2 []) : ℝ))
      exact .inl ⟨R', e', _, hR'⟩
    · exact .inr rfl
  · obtain ⟨e, he, h1, h2⟩ := hpart
    refine ⟨e, he, fun R _ => ?_⟩
    obtain ⟨b1, b2, b3⟩ := (LawfulStored.stored hA).2.1 e he
    refine (varfd_fourier_step hfl hz ok hd hit R b2).trans ?_
    rw [if_neg (by omega), if_neg h2]

end

end Hermipy
