import Verif.Lemmas.OperatorAlgebra
import Mathlib.Tactic.Ring
import Mathlib.Data.List.GetD
import Mathlib.Algebra.BigOperators.Ring.List

/-! # The rule of Leibniz for lists of terms -/

namespace Hermipy
open Hermipy.Spec Hermipy.Props

variable {K : Type} [CommRing K] {D : ℕ → K → K}

theorem coeffAt_cons (t : OpTerm K) (T : List (OpTerm K)) (m : List ℕ) :
    coeffAt (t :: T) m = (if t.index = m then t.coeff else 0) + coeffAt T m := by
  by_cases h : t.index = m <;> simp [coeffAt, h]

theorem coeffAt_nil (m : List ℕ) : coeffAt ([] : List (OpTerm K)) m = 0 := rfl

theorem coeffAt_append (S T : List (OpTerm K)) (m : List ℕ) : coeffAt (S ++ T) m = coeffAt S m + coeffAt T m := by
  simp [coeffAt]

theorem coeffAt_scale (c : K) (T : List (OpTerm K)) (m : List ℕ) : coeffAt (scaleTerms c T) m = c * coeffAt T m := by
  induction T with
  | nil => simp [scaleTerms, coeffAt]
  | cons t T ih =>
    rw [show scaleTerms c (t :: T) = ⟨c * t.coeff, t.index⟩ :: scaleTerms c T from rfl, coeffAt_cons, coeffAt_cons, ih]
    split <;> ring

theorem coeffAt_of_mem {T : List (OpTerm K)} (hd : (T.map OpTerm.index).Nodup) {t : OpTerm K} (ht : t ∈ T) : coeffAt T t.index = t.coeff := by
  induction T with
  | nil => simp at ht
  | cons s T ih =>
    rw [List.map_cons, List.nodup_cons] at hd
    rw [coeffAt_cons]
    rcases List.mem_cons.1 ht with rfl | ht'
    · rw [if_pos rfl, coeffAt, List.filter_eq_nil_iff.2, List.map_nil, List.sum_nil, add_zero]
      intro s hs he
      exact hd.1 (List.mem_map.2 ⟨s, hs, of_decide_eq_true he⟩)
    · rw [if_neg, zero_add, ih hd.2 ht']
      intro he
      exact hd.1 (List.mem_map.2 ⟨t, ht', he.symm⟩)

theorem modify_pred {m s : List ℕ} {i : ℕ} (hi : i < m.length) : s.modify i (· + 1) = m ↔ 0 < m.getD i 0 ∧ s = m.modify i (· - 1) := by
  constructor
  · rintro rfl
    have hi' : i < s.length := by simpa using hi
    refine ⟨by simp [hi'], ?_⟩
    apply List.ext_getElem (by simp)
    intro k h1 h2
    simp only [List.getElem_modify]
    split <;> simp
  · rintro ⟨h0, rfl⟩
    apply List.ext_getElem (by simp)
    intro k h1 h2
    simp only [List.getElem_modify]
    split
    · rename_i e
      subst e
      rw [List.getD_eq_getElem _ _ hi] at h0
      omega
    · rfl

theorem coeffAt_diff (h : Partials D) {fdirs : List ℕ} {d : ℕ} (hd : d ∈ fdirs) {T : List (OpTerm K)} {m : List ℕ} (hm : m.length = fdirs.length) :
    coeffAt (diffTerms D fdirs d T) m = D d (coeffAt T m) +
      if 0 < m.getD (fdirs.idxOf d) 0 then coeffAt T (m.modify (fdirs.idxOf d) (· - 1)) else 0 := by
  have hi : fdirs.idxOf d < m.length := by rw [hm]; exact List.idxOf_lt_length_iff.2 hd
  induction T with
  | nil => simp [diffTerms, coeffAt_nil, h.zero]
  | cons t T ih =>
    rw [show diffTerms D fdirs d (t :: T) = diffTerm D fdirs d t ++ diffTerms D fdirs d T from rfl, coeffAt_append, ih, diffTerm, if_pos hd,
      coeffAt_cons, coeffAt_cons, coeffAt_nil, coeffAt_cons, coeffAt_cons, h.add]
    have e1 : D d (if t.index = m then t.coeff else 0) = if t.index = m then D d t.coeff else 0 := by
      split
      · rfl
      · exact h.zero d
    have e2 : (if t.index.modify (fdirs.idxOf d) (· + 1) = m then t.coeff else 0) =
        if 0 < m.getD (fdirs.idxOf d) 0 then (if t.index = m.modify (fdirs.idxOf d) (· - 1) then t.coeff else 0) else 0 := by
      by_cases h0 : 0 < m.getD (fdirs.idxOf d) 0
      · simp only [modify_pred hi, h0, true_and, if_true]
      · simp only [modify_pred hi, h0, false_and, if_false]
    rw [e1, e2]
    by_cases h0 : 0 < m.getD (fdirs.idxOf d) 0
    · simp only [h0, if_true]
      ring
    · simp only [h0, if_false]
      ring

theorem natCast_mul (h : Partials D) (d n : ℕ) (u : K) : D d ((n : K) * u) = n * D d u := by
  induction n with
  | zero => simp [h.zero]
  | succ n ih => rw [Nat.cast_succ, add_mul, one_mul, h.add, ih]; ring

/-- Differentiating `k` times in one direction an expression in which the unknown function is not differentiated in this direction. -/
theorem coeffAt_iter (h : Partials D) {fdirs : List ℕ} {d : ℕ} (hd : d ∈ fdirs) {T : List (OpTerm K)}
    (h0 : ∀ m : List ℕ, m.length = fdirs.length → m.getD (fdirs.idxOf d) 0 ≠ 0 → coeffAt T m = 0) (k : ℕ) :
    ∀ {m : List ℕ}, m.length = fdirs.length →
    coeffAt ((diffTerms D fdirs d)^[k] T) m =
      (k.choose (m.getD (fdirs.idxOf d) 0) : K) * (D d)^[k - m.getD (fdirs.idxOf d) 0] (coeffAt T (m.set (fdirs.idxOf d) 0)) := by
  induction k with
  | zero =>
    intro m hm
    have hi : fdirs.idxOf d < m.length := by rw [hm]; exact List.idxOf_lt_length_iff.2 hd
    by_cases hz : m.getD (fdirs.idxOf d) 0 = 0
    · have e : m.set (fdirs.idxOf d) 0 = m := by
        rw [List.getD_eq_getElem _ _ hi] at hz
        rw [← hz, List.set_getElem_self]
      rw [hz, e]
      simp
    · rw [Function.iterate_zero_apply, h0 m hm hz, Nat.choose_eq_zero_of_lt (by omega)]
      simp
  | succ k ih =>
    intro m hm
    have hi : fdirs.idxOf d < m.length := by rw [hm]; exact List.idxOf_lt_length_iff.2 hd
    rw [Function.iterate_succ_apply', coeffAt_diff h hd hm, ih hm, natCast_mul h, ← Function.iterate_succ_apply' (D d)]
    split
    · rename_i hpos
      rw [ih (by simpa using hm)]
      have e1 : (m.modify (fdirs.idxOf d) (· - 1)).getD (fdirs.idxOf d) 0 = m.getD (fdirs.idxOf d) 0 - 1 := by
        rw [List.getD_eq_getElem _ _ (by simpa using hi), List.getD_eq_getElem _ _ hi, List.getElem_modify_eq]
      have e2 : (m.modify (fdirs.idxOf d) (· - 1)).set (fdirs.idxOf d) 0 = m.set (fdirs.idxOf d) 0 := by
        apply List.ext_getElem (by simp)
        intro j h1 h2
        simp only [List.getElem_set, List.getElem_modify]
        split <;> rfl
      rw [e1, e2]
      obtain ⟨j, hj⟩ := Nat.exists_eq_succ_of_ne_zero hpos.ne'
      rw [hj]
      simp only [Nat.succ_eq_add_one, Nat.add_sub_cancel, Nat.choose_succ_succ, Nat.cast_add]
      by_cases hjk : j + 1 ≤ k
      · rw [show k - (j + 1) + 1 = k - j by omega, show k + 1 - (j + 1) = k - j by omega]
        ring
      · rw [Nat.choose_eq_zero_of_lt (show k < j + 1 by omega), show k + 1 - (j + 1) = k - j by omega]
        simp
    · rename_i hz
      have hz : m.getD (fdirs.idxOf d) 0 = 0 := by omega
      rw [hz]
      simp

/-- The derivative of `g` times the unknown function. -/
theorem coeffAt_leibniz (h : Partials D) (g : K) : ∀ {pre dirs : List ℕ}, (pre ++ dirs).Nodup → ∀ {a : List ℕ}, a.length = dirs.length →
    ∀ {m : List ℕ}, m.length = (pre ++ dirs).length →
    coeffAt (diffsTerms D (pre ++ dirs) dirs a (unknownTimes (pre ++ dirs) g)) m =
      if m.take pre.length = List.replicate pre.length 0 then leibniz D g dirs a (m.drop pre.length) else 0
  | pre, [], hn, [], ha, m, hm => by
    rw [show diffsTerms D (pre ++ []) [] [] (unknownTimes (pre ++ []) g) = unknownTimes (pre ++ []) g from rfl, unknownTimes, coeffAt_cons,
      coeffAt_nil, add_zero]
    simp only [List.append_nil, List.length_append, List.length_nil, add_zero, leibniz] at hm ⊢
    rw [← hm, List.take_length]
    simp only [eq_comm]
  | pre, d :: dirs, hn, a :: as, ha, m, hm => by
    have hd : d ∈ pre ++ d :: dirs := by simp
    have hpre : d ∉ pre := by
      intro hc
      exact (List.nodup_append.1 hn).2.2 d hc d (by simp) rfl
    have hidx : (pre ++ d :: dirs).idxOf d = pre.length := by
      rw [List.idxOf_append, if_neg hpre, List.idxOf_cons_self, Nat.zero_add]
    have hassoc : pre ++ d :: dirs = (pre ++ [d]) ++ dirs := by simp
    have ih : ∀ {m : List ℕ}, m.length = (pre ++ d :: dirs).length →
        coeffAt (diffsTerms D (pre ++ d :: dirs) dirs as (unknownTimes (pre ++ d :: dirs) g)) m =
          if m.take (pre.length + 1) = List.replicate (pre.length + 1) 0 then leibniz D g dirs as (m.drop (pre.length + 1)) else 0 := by
      intro m hm
      rw [hassoc] at hm hn ⊢
      rw [coeffAt_leibniz h g (pre := pre ++ [d]) hn (by simpa using ha) hm]
      simp
    have hi : pre.length < m.length := by rw [hm]; simp
    rw [diffsTerms, coeffAt_iter h hd _ a hm, hidx, ih (by simpa using hm)]
    · have e1 : (m.set pre.length 0).take (pre.length + 1) = m.take pre.length ++ [0] := by
        rw [List.take_succ_eq_append_getElem (by simpa using hi)]
        simp [List.take_set, List.set_eq_of_length_le]
      have e2 : m.drop pre.length = m.getD pre.length 0 :: m.drop (pre.length + 1) := by
        rw [List.drop_eq_getElem_cons hi, List.getD_eq_getElem _ _ hi]
      have e3 : (m.take pre.length ++ [0] = List.replicate pre.length 0 ++ [0]) ↔ m.take pre.length = List.replicate pre.length 0 :=
        List.append_left_inj _
      simp only [e1, List.replicate_succ', e3, List.drop_set_of_lt (show pre.length < pre.length + 1 by omega), e2]
      split
      · rfl
      · have : ∀ n, (D d)^[n] 0 = 0 := fun n => by
          induction n with
          | zero => rfl
          | succ n ihn => rw [Function.iterate_succ_apply', ihn, h.zero]
        rw [this, mul_zero]
    · intro m' hm' hne
      rw [hidx] at hne
      have hi' : pre.length < m'.length := by rw [hm']; simp
      rw [ih hm', if_neg]
      intro hc
      apply hne
      have := congrArg (fun l => l.getD pre.length 0) hc
      simpa [List.getD_eq_getElem?_getD] using this
  | _, [], _, _ :: _, ha, _, _ => by simp at ha
  | _, _ :: _, _, [], ha, _, _ => by simp at ha

theorem coeffAt_subst (h : Partials D) {A : HOp K} (hn : A.dirs.Nodup) (hw : Wide A.dirs.length A.terms) (g : K) {m : List ℕ}
    (hm : m.length = A.dirs.length) :
    coeffAt (substTerms D A.dirs A (unknownTimes A.dirs g)) m = productCoeff D A.dirs A.terms g m := by
  rw [substTerms, productCoeff]
  induction hT : A.terms generalizing A with
  | nil => rfl
  | cons t T ih =>
    rw [hT] at hw
    have e := ih (A := ⟨A.dirs, T⟩) hn (fun s hs => hw s (List.mem_cons_of_mem _ hs)) hm rfl
    have e2 := coeffAt_leibniz h g (pre := []) (by simpa using hn) (hw t (by simp)) hm
    simp only [List.nil_append, List.length_nil, List.take_zero, List.replicate_zero, if_true, List.drop_zero] at e2
    rw [List.flatMap_cons, coeffAt_append, coeffAt_scale, e2, List.map_cons, List.sum_cons]
    congr 1

theorem leibniz_le (h : Partials D) (g : K) : ∀ {dirs a m : List ℕ}, a.length = dirs.length → m.length = dirs.length → leibniz D g dirs a m ≠ 0 →
    m.sum ≤ a.sum
  | [], [], [], _, _, _ => le_refl _
  | d :: dirs, a :: as, m :: ms, ha, hm, hne => by
    rw [leibniz] at hne
    have h1 : m ≤ a := by
      by_contra hc
      rw [Nat.choose_eq_zero_of_lt (by omega)] at hne
      simp at hne
    have h2 : leibniz D g dirs as ms ≠ 0 := by
      intro hc
      rw [hc] at hne
      have : ∀ n, (D d)^[n] 0 = 0 := fun n => by
        induction n with
        | zero => rfl
        | succ n ihn => rw [Function.iterate_succ_apply', ihn, h.zero]
      rw [this, mul_zero] at hne
      exact hne rfl
    have := leibniz_le h g (by simpa using ha) (by simpa using hm) h2
    simp only [List.sum_cons]
    omega
  | [], [], _ :: _, _, hm, _ => by simp at hm
  | [], _ :: _, _, ha, _, _ => by simp at ha
  | _ :: _, [], _, ha, _, _ => by simp at ha
  | _ :: _, _ :: _, [], _, hm, _ => by simp at hm

end Hermipy
