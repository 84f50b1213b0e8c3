import Verif.Lemmas.Along
import Verif.Model.Inner

/-! # The direction bookkeeping of `inner` -/

namespace Hermipy

open Spec

/-- What the merge loop of `inner` computes for increasing direction lists. -/
structure PlanOk (i j : Nat) (as bs : IVec) (p : InnerPlan) : Prop where
  incD : Inc p.dirs_result
  incK : Inc p.dirs_inner
  memD : ∀ x, x ∈ p.dirs_result ↔ (x ∈ as ∧ x ∉ bs) ∨ (x ∈ bs ∧ x ∉ as)
  memK : ∀ x, x ∈ p.dirs_inner ↔ x ∈ as ∧ x ∈ bs
  side : p.in_dirs1 = p.dirs_result.map fun x => decide (x ∈ as)
  free : p.free_ind = p.dirs_result.map fun x => if x ∈ as then i + as.idxOf x else j + bs.idxOf x
  ind1 : p.inner_ind1 = p.dirs_inner.map fun x => i + as.idxOf x
  ind2 : p.inner_ind2 = p.dirs_inner.map fun x => j + bs.idxOf x

theorem innerPlan_ok : ∀ (n i j : Nat) (as bs : IVec), as.length + bs.length ≤ n → Inc as → Inc bs →
    PlanOk i j as bs (innerPlan i j as bs) := by
  intro n
  induction n with
  | zero =>
    intro i j as bs hn _ _
    obtain rfl : as = [] := List.length_eq_zero_iff.1 (by omega)
    obtain rfl : bs = [] := List.length_eq_zero_iff.1 (by omega)
    constructor <;> simp [innerPlan]
  | succ n ih =>
    have left : ∀ (i j a : Nat) (as bs : IVec), as.length + bs.length ≤ n → Inc (a :: as) → Inc bs → (∀ b ∈ bs, a < b) →
        PlanOk i j (a :: as) bs { innerPlan (i + 1) j as bs with
          in_dirs1 := true :: (innerPlan (i + 1) j as bs).in_dirs1
          free_ind := i :: (innerPlan (i + 1) j as bs).free_ind
          dirs_result := a :: (innerPlan (i + 1) j as bs).dirs_result } := by
      intro i j a as bs hn ha hb hlt
      have ha' := List.pairwise_cons.1 ha
      have h := ih (i + 1) j as bs hn ha'.2 hb
      have hab : a ∉ bs := fun hc => Nat.lt_irrefl _ (hlt a hc)
      have gtD : ∀ x ∈ (innerPlan (i + 1) j as bs).dirs_result, a < x := by
        intro x hx
        rcases (h.memD x).1 hx with hx | hx
        · exact ha'.1 x hx.1
        · exact hlt x hx.1
      have gtK : ∀ x ∈ (innerPlan (i + 1) j as bs).dirs_inner, a < x := fun x hx => ha'.1 x ((h.memK x).1 hx).1
      refine ⟨List.pairwise_cons.2 ⟨gtD, h.incD⟩, h.incK, fun x => ?_, fun x => ?_, ?_, ?_, ?_, h.ind2⟩
      · rw [List.mem_cons, h.memD x, List.mem_cons]
        by_cases hx : x = a
        · subst hx; simp [hab]
        · simp [hx]
      · show x ∈ (innerPlan (i + 1) j as bs).dirs_inner ↔ _
        rw [h.memK x, List.mem_cons]
        by_cases hx : x = a
        · subst hx; simp [hab]
        · simp [hx]
      · simp only [List.map_cons, h.side, List.mem_cons, true_or, decide_true]
        congr 1
        apply List.map_congr_left
        intro x hx
        have := gtD x hx
        simp [show x ≠ a by omega]
      · simp only [List.map_cons, h.free, List.mem_cons, true_or, if_true, List.idxOf_cons_self]
        congr 1
        apply List.map_congr_left
        intro x hx
        have := gtD x hx
        rw [idxOf_cons_ne' (show a ≠ x by omega)]
        by_cases hc : x ∈ as
        · rw [if_pos hc, if_pos (Or.inr hc)]; omega
        · rw [if_neg hc, if_neg (by simp [hc]; omega)]
      · show (innerPlan (i + 1) j as bs).inner_ind1 = _
        rw [h.ind1]
        apply List.map_congr_left
        intro x hx
        have := gtK x hx
        rw [idxOf_cons_ne' (show a ≠ x by omega)]
        omega
    have right : ∀ (i j b : Nat) (as bs : IVec), as.length + bs.length ≤ n → Inc as → Inc (b :: bs) → (∀ a ∈ as, b < a) →
        PlanOk i j as (b :: bs) { innerPlan i (j + 1) as bs with
          in_dirs1 := false :: (innerPlan i (j + 1) as bs).in_dirs1
          free_ind := j :: (innerPlan i (j + 1) as bs).free_ind
          dirs_result := b :: (innerPlan i (j + 1) as bs).dirs_result } := by
      intro i j b as bs hn ha hb hlt
      have hb' := List.pairwise_cons.1 hb
      have h := ih i (j + 1) as bs hn ha hb'.2
      have hba : b ∉ as := fun hc => Nat.lt_irrefl _ (hlt b hc)
      have gtD : ∀ x ∈ (innerPlan i (j + 1) as bs).dirs_result, b < x := by
        intro x hx
        rcases (h.memD x).1 hx with hx | hx
        · exact hlt x hx.1
        · exact hb'.1 x hx.1
      have gtK : ∀ x ∈ (innerPlan i (j + 1) as bs).dirs_inner, b < x := fun x hx => hlt x ((h.memK x).1 hx).1
      refine ⟨List.pairwise_cons.2 ⟨gtD, h.incD⟩, h.incK, fun x => ?_, fun x => ?_, ?_, ?_, h.ind1, ?_⟩
      · rw [List.mem_cons, h.memD x, List.mem_cons]
        by_cases hx : x = b
        · subst hx; simp [hba]
        · simp [hx]
      · show x ∈ (innerPlan i (j + 1) as bs).dirs_inner ↔ _
        rw [h.memK x, List.mem_cons]
        by_cases hx : x = b
        · subst hx; simp [hba]
        · simp [hx]
      · simp only [List.map_cons, h.side, hba, decide_false]
      · simp only [List.map_cons, h.free, hba, if_false, List.idxOf_cons_self]
        congr 1
        apply List.map_congr_left
        intro x hx
        have := gtD x hx
        rw [idxOf_cons_ne' (show b ≠ x by omega)]
        by_cases hc : x ∈ as
        · rw [if_pos hc, if_pos hc]
        · rw [if_neg hc, if_neg hc]; omega
      · show (innerPlan i (j + 1) as bs).inner_ind2 = _
        rw [h.ind2]
        apply List.map_congr_left
        intro x hx
        have := gtK x hx
        rw [idxOf_cons_ne' (show b ≠ x by omega)]
        omega
    have both : ∀ (i j a : Nat) (as bs : IVec), as.length + bs.length ≤ n → Inc (a :: as) → Inc (a :: bs) →
        PlanOk i j (a :: as) (a :: bs) { innerPlan (i + 1) (j + 1) as bs with
          dirs_inner := a :: (innerPlan (i + 1) (j + 1) as bs).dirs_inner
          inner_ind1 := i :: (innerPlan (i + 1) (j + 1) as bs).inner_ind1
          inner_ind2 := j :: (innerPlan (i + 1) (j + 1) as bs).inner_ind2 } := by
      intro i j a as bs hn ha hb
      have ha' := List.pairwise_cons.1 ha
      have hb' := List.pairwise_cons.1 hb
      have h := ih (i + 1) (j + 1) as bs hn ha'.2 hb'.2
      have gtD : ∀ x ∈ (innerPlan (i + 1) (j + 1) as bs).dirs_result, a < x := by
        intro x hx
        rcases (h.memD x).1 hx with hx | hx
        · exact ha'.1 x hx.1
        · exact hb'.1 x hx.1
      have gtK : ∀ x ∈ (innerPlan (i + 1) (j + 1) as bs).dirs_inner, a < x := fun x hx => ha'.1 x ((h.memK x).1 hx).1
      have naa : a ∉ as := fun hc => Nat.lt_irrefl _ (ha'.1 a hc)
      have nab : a ∉ bs := fun hc => Nat.lt_irrefl _ (hb'.1 a hc)
      refine ⟨h.incD, List.pairwise_cons.2 ⟨gtK, h.incK⟩, fun x => ?_, fun x => ?_, ?_, ?_, ?_, ?_⟩
      · show x ∈ (innerPlan (i + 1) (j + 1) as bs).dirs_result ↔ _
        rw [h.memD x, List.mem_cons, List.mem_cons]
        by_cases hx : x = a
        · subst hx; simp [naa, nab]
        · simp [hx]
      · rw [List.mem_cons, h.memK x, List.mem_cons, List.mem_cons]
        by_cases hx : x = a
        · subst hx; simp
        · simp [hx]
      · show (innerPlan (i + 1) (j + 1) as bs).in_dirs1 = _
        rw [h.side]
        apply List.map_congr_left
        intro x hx
        have := gtD x hx
        simp [show x ≠ a by omega]
      · show (innerPlan (i + 1) (j + 1) as bs).free_ind = _
        rw [h.free]
        apply List.map_congr_left
        intro x hx
        have := gtD x hx
        rw [idxOf_cons_ne' (show a ≠ x by omega), idxOf_cons_ne' (show a ≠ x by omega)]
        by_cases hc : x ∈ as
        · rw [if_pos hc, if_pos (by simp [hc])]; omega
        · rw [if_neg hc, if_neg (by simp [hc]; omega)]; omega
      · simp only [List.map_cons, h.ind1, List.idxOf_cons_self]
        congr 1
        apply List.map_congr_left
        intro x hx
        have := gtK x hx
        rw [idxOf_cons_ne' (show a ≠ x by omega)]
        omega
      · simp only [List.map_cons, h.ind2, List.idxOf_cons_self]
        congr 1
        apply List.map_congr_left
        intro x hx
        have := gtK x hx
        rw [idxOf_cons_ne' (show a ≠ x by omega)]
        omega
    intro i j as bs hn ha hb
    match as, bs with
    | [], [] => constructor <;> simp [innerPlan]
    | a :: as, [] =>
      have := left i j a as [] (by simp at hn ⊢; omega) ha hb (by simp)
      rw [innerPlan]
      exact this
    | [], b :: bs =>
      have := right i j b [] bs (by simp at hn ⊢; omega) ha hb (by simp)
      rw [innerPlan]
      exact this
    | a :: as, b :: bs =>
      have ha' := List.pairwise_cons.1 ha
      have hb' := List.pairwise_cons.1 hb
      rw [innerPlan]
      by_cases hab : a > b
      · rw [if_pos hab]
        exact right i j b (a :: as) bs (by simp at hn ⊢; omega) ha hb (fun x hx => by
          rcases List.mem_cons.1 hx with rfl | hx
          · exact hab
          · exact lt_trans hab (ha'.1 x hx))
      · rw [if_neg hab]
        by_cases hab' : a < b
        · rw [if_pos hab']
          exact left i j a as (b :: bs) (by simp at hn ⊢; omega) ha hb (fun x hx => by
            rcases List.mem_cons.1 hx with rfl | hx
            · exact hab'
            · exact lt_trans hab' (hb'.1 x hx))
        · rw [if_neg hab']
          obtain rfl : a = b := by omega
          exact both i j a as bs (by simp at hn ⊢; omega) ha hb

end Hermipy
