import Verif.Lemmas.Along
import Verif.Lemmas.Matrix

/-! # Tensorization of two sparse matrices -/

namespace Hermipy

open Spec

variable {α : Type}

/-- The multi-index put together by the two scatter loops. -/
theorem scatter_two {d dA dB mA mB : IVec} (hd : Inc d) (hA : Inc dA) (hB : Inc dB) (hperm : d.Perm (dA ++ dB))
    (hlA : mA.length = dA.length) (hlB : mB.length = dB.length) :
    ∃ base row, scatter dA.length (dA.map (fun x => d.idxOf x)) mA (List.replicate d.length 0) = .ok base ∧
      scatter dB.length (dB.map (fun x => d.idxOf x)) mB base = .ok row ∧ row.length = d.length ∧
      along d dA row = mA ∧ along d dB row = mB := by
  have sA : ∀ x ∈ dA, x ∈ d := fun x hx => hperm.mem_iff.2 (by simp [hx])
  have sB : ∀ x ∈ dB, x ∈ d := fun x hx => hperm.mem_iff.2 (by simp [hx])
  have hdisj : ∀ x ∈ dA, x ∉ dB := by
    have := hperm.nodup_iff.1 hd.nodup
    rw [List.nodup_append] at this
    intro x hx hx'
    exact this.2.2 x hx x hx' rfl
  have nA := (hd.positions hA sA).nodup
  have nB := (hd.positions hB sB).nodup
  obtain ⟨base, e1, l1, p1, q1⟩ := scatter_spec (m := mA) (base := List.replicate d.length 0) nA (by simpa using hlA)
    (fun p hp => by simpa using positions_lt sA p hp)
  obtain ⟨row, e2, l2, p2, q2⟩ := scatter_spec (m := mB) (base := base) nB (by simpa using hlB)
    (fun p hp => by rw [l1]; simpa using positions_lt sB p hp)
  rw [List.length_map] at e1 e2
  have hres : ∀ (dirs mm : IVec) , Inc dirs → (∀ x ∈ dirs, x ∈ d) → mm.length = dirs.length →
      (∀ p ∈ dirs.map (fun x => d.idxOf x), row.getD p 0 = at' (dirs.map (fun x => d.idxOf x)) mm p) →
      along d dirs row = mm := by
    intro dirs mm hi hs hl hp
    have hn := (hd.positions hi hs).nodup
    apply List.ext_getElem
    · simp [along_length, hl]
    · intro i h1 h2
      rw [along_length] at h1
      simp only [along, List.getElem_map, at']
      have h3 : i < (dirs.map (fun x => d.idxOf x)).length := by simpa using h1
      have h4 := hp _ (List.getElem_mem h3)
      rw [at'_of_getElem hn h3 (by simpa using hl)] at h4
      simpa using h4
  refine ⟨base, row, e1, e2, by rw [l2, l1]; simp, ?_, ?_⟩
  · refine hres dA mA hA sA hlA fun p hp => ?_
    rw [q2 p, p1 p hp]
    intro hp'
    obtain ⟨x, hx, rfl⟩ := List.mem_map.1 hp
    obtain ⟨y, hy, hxy⟩ := List.mem_map.1 hp'
    have h1 := List.getElem_idxOf (List.idxOf_lt_length_of_mem (sA x hx))
    have h2 := List.getElem_idxOf (List.idxOf_lt_length_of_mem (sB y hy))
    have : x = y := by
      rw [← h1, ← h2]
      simp only [hxy]
    subst this
    exact hdisj x hx hy
  · exact hres dB mB hB sB hlB p2

open Classical in
theorem tensorize_pair_ok [MulZeroClass α] {s : IndexSet} {degree : Nat} {dA dB : IVec} (hu : Usable s dA.length degree)
    (hz : Sized s (dA.length + dB.length) degree) (hA : Inc dA) (hB : Inc dB) (hdisj : ∀ x ∈ dA, x ∉ dB) (hne : dB ≠ [])
    {LA LB : List IVec} (hLA : IterOk s dA.length degree LA) (hLB : IterOk s dB.length degree LB) {A B : SpMat α}
    {fA fB : Nat → Nat → α} (hmA : IsMat A LA.length LA.length fA) (hmB : IsMat B LB.length LB.length fB)
    {L : List IVec} (hL : IterOk s (dA.length + dB.length) degree L) :
    ∃ P, tensorize_pair s A B dA dB = .ok P ∧
      IsMat P L.length L.length (fun i j =>
        entry LA fA (along (tensorize_dirs 0 dA dB).1 dA (L.getD i [])) (along (tensorize_dirs 0 dA dB).1 dA (L.getD j [])) *
        entry LB fB (along (tensorize_dirs 0 dA dB).1 dB (L.getD i [])) (along (tensorize_dirs 0 dA dB).1 dB (L.getD j []))) := by
  obtain ⟨hdI, hperm, hpA, hpB⟩ := tensorize_dirs_spec _ 0 dA dB rfl hA hB hdisj
  simp only [Nat.zero_add] at hpA hpB
  obtain ⟨d, hd⟩ : ∃ d, d = (tensorize_dirs 0 dA dB).1 := ⟨_, rfl⟩
  rw [← hd] at hdI hperm hpA hpB ⊢
  have hdl : d.length = dA.length + dB.length := by rw [hperm.length_eq]; simp
  have sA : ∀ x ∈ dA, x ∈ d := fun x hx => hperm.mem_iff.2 (by simp [hx])
  have sB : ∀ x ∈ dB, x ∈ d := fun x hx => hperm.mem_iff.2 (by simp [hx])
  have hneA : dA ≠ [] := by have := hu.dim_pos; rw [← List.length_pos_iff]; omega
  have hBpos : 1 ≤ dB.length := by have := List.length_pos_iff.2 hne; omega
  obtain ⟨dg, hdeg, hsame⟩ := hu.degree hLA
  obtain ⟨L', h1, hL2, hsz, -⟩ := hz.open hsame
  have := hL.unique h1; subst this
  obtain ⟨LA', h1', hLA2, -, -⟩ := hu.toSized.open hsame
  have := hLA.unique h1'; subst this
  obtain ⟨LB', h1'', hLB2, -, -⟩ := (hz.sub hBpos (by omega)).open hsame
  have := hLB.unique h1''; subst this
  -- positions of the restrictions
  obtain ⟨pA, hpAd⟩ : ∃ pA : Nat → Nat, pA = fun i => LA.idxOf (along d dA (L.getD i [])) := ⟨_, rfl⟩
  obtain ⟨pB, hpBd⟩ : ∃ pB : Nat → Nat, pB = fun i => LB.idxOf (along d dB (L.getD i [])) := ⟨_, rfl⟩
  have memL : ∀ i, i < L.length → InSet s d.length degree (L.getD i []) := by
    intro i hi
    rw [hdl]
    apply (hL.mem _).1
    simp [hi]
  have memA : ∀ i, i < L.length → along d dA (L.getD i []) ∈ LA := fun i hi =>
    (hLA.mem _).2 (inSet_along hdI hA hneA sA (memL i hi))
  have memB : ∀ i, i < L.length → along d dB (L.getD i []) ∈ LB := fun i hi =>
    (hLB.mem _).2 (inSet_along hdI hB hne sB (memL i hi))
  have rowkey : ∀ {ra rb : Nat} {mA mB row : IVec}, LA[ra]? = some mA → LB[rb]? = some mB → row.length = d.length →
      along d dA row = mA → along d dB row = mB → ∀ i, i < L.length → ((pA i = ra ∧ pB i = rb) ↔ L[i]? = some row) := by
    intro ra rb mA mB row hra hrb hlr hrA hrB i hi
    have hg : L[i]? = some (L.getD i []) := by simp [hi]
    rw [hg]
    constructor
    · rintro ⟨h1, h2⟩
      congr 1
      refine eq_of_along (dA := dA) (dB := dB) hdI.nodup (inSet_length (memL i hi)) hlr
        (fun x hx => by simpa using hperm.mem_iff.1 hx) ?_ ?_
      · have := getElem?_idxOf' (memA i hi)
        rw [hpAd] at h1
        beta_reduce at h1
        rw [h1, hra] at this
        rw [hrA]
        exact (Option.some.inj this).symm
      · have := getElem?_idxOf' (memB i hi)
        rw [hpBd] at h2
        beta_reduce at h2
        rw [h2, hrb] at this
        rw [hrB]
        exact (Option.some.inj this).symm
    · intro e
      have e := Option.some.inj e
      rw [hpAd, hpBd]
      beta_reduce
      rw [e, hrA, hrB]
      exact ⟨idxOf_of_getElem? hLA.nodup hra, idxOf_of_getElem? hLB.nodup hrb⟩
  obtain ⟨F, hF⟩ : ∃ F : Nat → Nat → α, F = fun i j => fA (pA i) (pA j) * fB (pB i) (pB j) := ⟨_, rfl⟩
  have hAsz := hmA
  obtain ⟨hA1, hA2, -, hA4, hA5⟩ := hmA
  obtain ⟨hB1, hB2, -, hB4, hB5⟩ := hmB
  have outer := foldlM_inv
    (f := fun (product : SpMat α) (eA : (Nat × Nat) × α) => do
      let m_row_A ← rd LA eA.1.1
      let m_col_A ← rd LA eA.1.2
      let row_base ← scatter dA.length (dA.map (fun x => d.idxOf x)) m_row_A (List.replicate (dA.length + dB.length) 0)
      let col_base ← scatter dA.length (dA.map (fun x => d.idxOf x)) m_col_A (List.replicate (dA.length + dB.length) 0)
      B.elems.foldlM (fun product eB => do
        let m_row_B ← rd LB eB.1.1
        let m_col_B ← rd LB eB.1.2
        let row ← scatter dB.length (dB.map (fun x => d.idxOf x)) m_row_B row_base
        let col ← scatter dB.length (dB.map (fun x => d.idxOf x)) m_col_B col_base
        if !((freshIter (dA.length + dB.length) L).has row) || !((freshIter (dA.length + dB.length) L).has col) then
          .ok product
        else do
          let ind_row ← (freshIter (dA.length + dB.length) L).index row
          let ind_col ← (freshIter (dA.length + dB.length) L).index col
          MatOps.set product ind_row ind_col (eA.2 * eB.2)) product)
    (fun a P => IsMat P L.length L.length (fun i j =>
      if (∃ eA ∈ A.elems.take a, eA.1 = (pA i, pA j)) ∧ ∃ eB ∈ B.elems, eB.1 = (pB i, pB j) then F i j else 0))
    A.elems (MatOps.construct (M := SpMat α) L.length L.length)
    (LawfulMat.congr (LawfulMat.construct _ _) fun _ _ _ _ => by simp)
    (by
      intro a eA P heA hP
      have halt : a < A.elems.length := (List.getElem?_eq_some_iff.1 heA).1
      have hea := (List.getElem?_eq_some_iff.1 heA).2
      obtain ⟨hr, hc, hv⟩ := hA4 eA (List.mem_of_getElem? heA)
      have inner := foldlM_inv
        (f := fun (product : SpMat α) (eB : (Nat × Nat) × α) => do
          let m_row_B ← rd LB eB.1.1
          let m_col_B ← rd LB eB.1.2
          let row_base ← scatter dA.length (dA.map (fun x => d.idxOf x)) LA[eA.1.1] (List.replicate (dA.length + dB.length) 0)
          let col_base ← scatter dA.length (dA.map (fun x => d.idxOf x)) LA[eA.1.2] (List.replicate (dA.length + dB.length) 0)
          let row ← scatter dB.length (dB.map (fun x => d.idxOf x)) m_row_B row_base
          let col ← scatter dB.length (dB.map (fun x => d.idxOf x)) m_col_B col_base
          if !((freshIter (dA.length + dB.length) L).has row) || !((freshIter (dA.length + dB.length) L).has col) then
            .ok product
          else do
            let ind_row ← (freshIter (dA.length + dB.length) L).index row
            let ind_col ← (freshIter (dA.length + dB.length) L).index col
            MatOps.set product ind_row ind_col (eA.2 * eB.2))
        (fun b P => IsMat P L.length L.length (fun i j =>
          if ((∃ eA ∈ A.elems.take a, eA.1 = (pA i, pA j)) ∧ ∃ eB ∈ B.elems, eB.1 = (pB i, pB j)) ∨
            (eA.1 = (pA i, pA j) ∧ ∃ eB ∈ B.elems.take b, eB.1 = (pB i, pB j)) then F i j else 0))
        B.elems P
        (LawfulMat.congr hP fun _ _ _ _ => by simp)
        (by
          intro b eB P heB hP
          have hblt : b < B.elems.length := (List.getElem?_eq_some_iff.1 heB).1
          have heb := (List.getElem?_eq_some_iff.1 heB).2
          obtain ⟨hr', hc', hv'⟩ := hB4 eB (List.mem_of_getElem? heB)
          have mlA : ∀ k (h : k < LA.length), LA[k].length = dA.length := fun k h =>
            inSet_length ((hLA.mem _).1 (List.getElem_mem h))
          have mlB : ∀ k (h : k < LB.length), LB[k].length = dB.length := fun k h =>
            inSet_length ((hLB.mem _).1 (List.getElem_mem h))
          obtain ⟨rb, row, e1, e2, lr, rA, rB⟩ := scatter_two hdI hA hB hperm (mlA _ hr) (mlB _ hr')
          obtain ⟨cb, col, e3, e4, lc, cA, cB⟩ := scatter_two hdI hA hB hperm (mlA _ hc) (mlB _ hc')
          rw [hdl] at e1 e3
          have krow := rowkey (List.getElem?_eq_getElem hr) (List.getElem?_eq_getElem hr') lr rA rB
          have kcol := rowkey (List.getElem?_eq_getElem hc) (List.getElem?_eq_getElem hc') lc cA cB
          rw [rd_of_lt hr', rd_of_lt hc']
          simp only [Out.ok_bind]
          rw [e1, e3]
          simp only [Out.ok_bind]
          rw [e2, e4]
          simp only [Out.ok_bind]
          -- the condition of the invariant at step b + 1
          have hcond : ∀ i j, i < L.length → j < L.length →
              ((((∃ eA ∈ A.elems.take a, eA.1 = (pA i, pA j)) ∧ ∃ eB ∈ B.elems, eB.1 = (pB i, pB j)) ∨
                (eA.1 = (pA i, pA j) ∧ ∃ eB ∈ B.elems.take (b + 1), eB.1 = (pB i, pB j))) ↔
              ((((∃ eA ∈ A.elems.take a, eA.1 = (pA i, pA j)) ∧ ∃ eB ∈ B.elems, eB.1 = (pB i, pB j)) ∨
                (eA.1 = (pA i, pA j) ∧ ∃ eB ∈ B.elems.take b, eB.1 = (pB i, pB j))) ∨
                (L[i]? = some row ∧ L[j]? = some col))) := by
            intro i j hi hj
            rw [or_assoc]
            refine or_congr_right ?_
            rw [List.take_succ_eq_append_getElem hblt, heb, ← krow i hi, ← kcol j hj]
            constructor
            · rintro ⟨h1, e, he, h2⟩
              rw [List.mem_append, List.mem_singleton] at he
              rcases he with he | rfl
              · exact Or.inl ⟨h1, e, he, h2⟩
              · rw [h1, h2]; exact Or.inr ⟨⟨rfl, rfl⟩, rfl, rfl⟩
            · rintro (⟨h1, e, he, h2⟩ | ⟨⟨h1, h2⟩, h3, h4⟩)
              · exact ⟨h1, e, by simp [he], h2⟩
              · exact ⟨by rw [h1, h3], eB, by simp, by rw [h2, h4]⟩
          by_cases hrow : InSet s (dA.length + dB.length) dg row
          · by_cases hcol : InSet s (dA.length + dB.length) dg col
            · have r1 : (freshIter (dA.length + dB.length) L).has row = true := (hL2.has row).2 hrow
              have r2 : (freshIter (dA.length + dB.length) L).has col = true := (hL2.has col).2 hcol
              simp only [r1, r2, Bool.not_true, Bool.or_self, Bool.false_eq_true, if_false]
              rw [hL2.index_of_mem hrow, hL2.index_of_mem hcol]
              simp only [Out.ok_bind]
              have i1 := List.idxOf_lt_length_of_mem ((hL2.mem _).2 hrow)
              have i2 := List.idxOf_lt_length_of_mem ((hL2.mem _).2 hcol)
              have g1 := getElem?_idxOf' ((hL2.mem _).2 hrow)
              have g2 := getElem?_idxOf' ((hL2.mem _).2 hcol)
              obtain ⟨P', e, hP'⟩ := LawfulMat.set hP i1 i2 (eA.2 * eB.2)
              refine ⟨P', e, LawfulMat.congr hP' fun i j hi hj => ?_⟩
              have hc3 := hcond i j hi hj
              by_cases hij : i = L.idxOf row ∧ j = L.idxOf col
              · rw [if_pos hij]
                obtain ⟨rfl, rfl⟩ := hij
                rw [if_pos (hc3.2 (Or.inr ⟨g1, g2⟩)), hF]
                beta_reduce
                rw [((krow _ hi).2 g1).1, ((krow _ hi).2 g1).2, ((kcol _ hj).2 g2).1, ((kcol _ hj).2 g2).2, hv, hv']
              · rw [if_neg hij]
                have h4 : ¬ (L[i]? = some row ∧ L[j]? = some col) := fun h =>
                  hij ⟨(idxOf_of_getElem? hL.nodup h.1).symm, (idxOf_of_getElem? hL.nodup h.2).symm⟩
                refine if_congr ?_ rfl rfl
                rw [hc3]
                exact (or_iff_left h4).symm
            · have r2 : (freshIter (dA.length + dB.length) L).has col = false := by
                rw [← Bool.not_eq_true, hL2.has col]; exact hcol
              simp only [r2, Bool.not_false, Bool.or_true, if_true]
              refine ⟨P, rfl, LawfulMat.congr hP fun i j hi hj => ?_⟩
              have h4 : ¬ (L[i]? = some row ∧ L[j]? = some col) := fun h =>
                hcol ((hL2.mem _).1 (List.mem_of_getElem? h.2))
              refine if_congr ?_ rfl rfl
              rw [hcond i j hi hj]
              exact (or_iff_left h4).symm
          · have r2 : (freshIter (dA.length + dB.length) L).has row = false := by
              rw [← Bool.not_eq_true, hL2.has row]; exact hrow
            simp only [r2, Bool.not_false, Bool.true_or, if_true]
            refine ⟨P, rfl, LawfulMat.congr hP fun i j hi hj => ?_⟩
            have h4 : ¬ (L[i]? = some row ∧ L[j]? = some col) := fun h =>
              hrow ((hL2.mem _).1 (List.mem_of_getElem? h.1))
            refine if_congr ?_ rfl rfl
            rw [hcond i j hi hj]
            exact (or_iff_left h4).symm)
      obtain ⟨P', e, hP'⟩ := inner
      have mlA : ∀ k (h : k < LA.length), LA[k].length = dA.length := fun k h =>
        inSet_length ((hLA.mem _).1 (List.getElem_mem h))
      obtain ⟨rb, -, e1, -⟩ := scatter_two hdI hA hB hperm (mlA _ hr) (mB := List.replicate dB.length 0) (by simp)
      obtain ⟨cb, -, e3, -⟩ := scatter_two hdI hA hB hperm (mlA _ hc) (mB := List.replicate dB.length 0) (by simp)
      rw [hdl] at e1 e3
      refine ⟨P', ?_, LawfulMat.congr hP' fun i j hi hj => ?_⟩
      · rw [rd_of_lt hr, rd_of_lt hc]
        simp only [Out.ok_bind]
        rw [e1, e3]
        simp only [Out.ok_bind]
        rw [e1, e3] at e
        simp only [Out.ok_bind] at e
        exact e
      · refine if_congr ?_ rfl rfl
        rw [List.take_length, List.take_succ_eq_append_getElem halt, hea]
        constructor
        · rintro (⟨⟨e, he, h1⟩, h2⟩ | ⟨h1, h2⟩)
          · exact ⟨⟨e, by simp [he], h1⟩, h2⟩
          · exact ⟨⟨eA, by simp, h1⟩, h2⟩
        · rintro ⟨⟨e, he, h1⟩, h2⟩
          rw [List.mem_append, List.mem_singleton] at he
          rcases he with he | rfl
          · exact Or.inl ⟨⟨e, he, h1⟩, h2⟩
          · exact Or.inr ⟨h1, h2⟩)
  obtain ⟨P, e, hP⟩ := outer
  refine ⟨P, ?_, LawfulMat.congr hP fun i j hi hj => ?_⟩
  · rw [tensorize_pair]
    simp only [hpA, hpB]
    rw [hA1, hdeg]
    simp only [Out.ok_bind, hsz, hL2.iter, hLA2.list, hLB2.list]
    exact e
  · have eA : entry LA fA (along d dA (L.getD i [])) (along d dA (L.getD j [])) = fA (pA i) (pA j) := by
      rw [entry, if_pos ⟨memA i hi, memA j hj⟩, hpAd]
    have eB : entry LB fB (along d dB (L.getD i [])) (along d dB (L.getD j [])) = fB (pB i) (pB j) := by
      rw [entry, if_pos ⟨memB i hi, memB j hj⟩, hpBd]
    rw [eA, eB, List.take_length]
    have lA : ∀ i, i < L.length → pA i < LA.length := fun i hi => by
      rw [hpAd]; exact List.idxOf_lt_length_of_mem (memA i hi)
    have lB : ∀ i, i < L.length → pB i < LB.length := fun i hi => by
      rw [hpBd]; exact List.idxOf_lt_length_of_mem (memB i hi)
    by_cases h1 : ∃ eA ∈ A.elems, eA.1 = (pA i, pA j)
    · by_cases h2 : ∃ eB ∈ B.elems, eB.1 = (pB i, pB j)
      · rw [if_pos ⟨h1, h2⟩, hF]
      · rw [if_neg (fun h => h2 h.2), hB5 _ _ (lB i hi) (lB j hj) (fun e he h => h2 ⟨e, he, h⟩), mul_zero]
    · rw [if_neg (fun h => h1 h.1), hA5 _ _ (lA i hi) (lA j hj) (fun e he h => h1 ⟨e, he, h⟩), zero_mul]

end Hermipy
