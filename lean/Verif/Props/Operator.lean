import Verif.Lemmas.Operator

/-! # C59: the coefficients of a differential operator -/

namespace Hermipy.Props
open Hermipy Hermipy.Spec

variable {K : Type} [CommRing K] [Algebra ℚ K] [DecidableEq K]

/-- The summands of the operator with the given terms. -/
noncomputable def argsOf (vars : List K) (L : List (OpTerm K)) : List (OpArg K) := L.map fun t => linearArg vars t.coeff t.index

/-- The dictionary entries for the listed orders. -/
def dictOf (L : List (OpTerm K)) (P : List (List ℕ)) : List (List ℕ × K) :=
  P.filterMap fun m => if coeffAt L m = 0 then none else some (m, coeffAt L m)

theorem split_fold (vars : List K) (L : List (OpTerm K)) (hc : ∀ t ∈ L, t.coeff ≠ 0) (hl : ∀ t ∈ L, t.index.length = vars.length) :
    ∀ (Q P : List (List ℕ)), mult vars.length = P ++ Q →
      Q.foldl opSplitStep (argsOf vars (L.filter fun t => t.index ∉ P), dictOf L P) =
        (argsOf vars (L.filter fun t => t.index ∉ P ++ Q), dictOf L (P ++ Q))
  | [], P, _ => by simp
  | m :: Q, P, h => by
    have hsort := mult_sorted vars.length
    rw [h, List.pairwise_append] at hsort
    have hm : m ∈ mult vars.length := by rw [h]; simp
    have hmP : m ∉ P := fun hc => absurd (hsort.2.2 m hc m (by simp)) (lt_irrefl m)
    -- at this turn exactly the terms with orders `m` do not vanish
    have key : ∀ t ∈ L, t.index ∉ P → (linearArg vars t.coeff t.index m = 0 ↔ t.index ≠ m) := by
      intro t ht htP
      constructor
      · intro e ei
        rw [← ei, linearArg_self] at e
        exact hc t ht e
      · intro hne
        by_contra hv
        rcases lex_of_le (linearArg_le (hl t ht) (mem_mult.1 hm).1 hv) with e | hlt
        · exact hne e
        · have hle := linearArg_le (hl t ht) (mem_mult.1 hm).1 hv
          have hin : t.index ∈ mult vars.length := mem_mult.2 ⟨hl t ht, (List.Forall₂.sum_le_sum hle).trans (mem_mult.1 hm).2⟩
          rw [h, List.mem_append] at hin
          rcases hin with hin | hin
          · exact htP hin
          · rcases List.mem_cons.1 hin with e | hin
            · exact hne e
            · exact absurd (lt_trans hlt ((List.pairwise_cons.1 hsort.2.1).1 _ hin)) (lt_irrefl _)
    have hfilt : ∀ (l : List (OpTerm K)), (∀ t ∈ l, t ∈ L) →
        (argsOf vars (l.filter fun t => t.index ∉ P)).filter (fun arg => arg m = 0) = argsOf vars (l.filter fun t => t.index ∉ P ++ [m]) := by
      intro l hl'
      rw [argsOf, argsOf, List.filter_map, List.filter_filter]
      congr 1
      refine List.filter_congr fun t ht => ?_
      by_cases hP : t.index ∈ P
      · simp [hP]
      · have := key t (hl' t ht) hP
        simp [hP, Function.comp, this]
    have hterm : (((argsOf vars (L.filter fun t => t.index ∉ P)).filter fun arg => ¬ arg m = 0).map fun arg => arg m).sum = coeffAt L m := by
      rw [coeffAt, argsOf, List.filter_map, List.filter_filter, List.map_map]
      have e : (L.filter fun t => (((fun arg : OpArg K => decide (¬ arg m = 0)) ∘ fun t => linearArg vars t.coeff t.index) t) && decide (t.index ∉ P)) =
          L.filter fun t => t.index = m := by
        refine List.filter_congr fun t ht => ?_
        by_cases hP : t.index ∈ P
        · have : t.index ≠ m := fun e => hmP (e ▸ hP)
          simp [hP, this]
        · have := key t ht hP
          simp [hP, this]
      rw [e]
      congr 1
      refine List.map_congr_left fun t ht => ?_
      have : t.index = m := by simpa using (List.mem_filter.1 ht).2
      simp [← this, linearArg_self]
    have hdict : dictOf L (P ++ [m]) = if coeffAt L m ≠ 0 then dictOf L P ++ [(m, coeffAt L m)] else dictOf L P := by
      rw [dictOf, List.filterMap_append]
      by_cases h0 : coeffAt L m = 0
      · simp [h0, dictOf]
      · simp [h0, dictOf]
    have hstep : opSplitStep (argsOf vars (L.filter fun t => t.index ∉ P), dictOf L P) m =
        (argsOf vars (L.filter fun t => t.index ∉ P ++ [m]), dictOf L (P ++ [m])) := by
      rw [opSplitStep]
      split
      · rename_i hz
        have hz : argsOf vars (L.filter fun t => t.index ∉ P) = [] := List.length_eq_zero_iff.1 hz
        have h1 := hfilt L fun _ h => h
        rw [hz] at h1 hterm
        have h0 : coeffAt L m = 0 := by rw [← hterm]; rfl
        rw [hdict, if_neg (by simp [h0]), ← h1, hz]
        rfl
      · dsimp only
        rw [hfilt L fun _ h => h, hterm, hdict]
    rw [List.foldl_cons, hstep, split_fold vars L hc hl Q (P ++ [m]) (by simpa using h)]
    simp

omit [Algebra ℚ K] [DecidableEq K] in
/-- The operator written with the orders of differentiation that occur. -/
theorem apply_eq (d : List ℕ → K) : ∀ (P : List (List ℕ)) (L : List (OpTerm K)), P.Nodup → (∀ t ∈ L, t.index ∈ P) →
    apply L d = (P.map fun m => coeffAt L m * d m).sum
  | [], L, _, h => by
    have : L = [] := List.eq_nil_iff_forall_not_mem.2 fun t ht => by simpa using h t ht
    simp [this, apply]
  | m :: P, L, hn, h => by
    obtain ⟨h1, h2⟩ := List.nodup_cons.1 hn
    have ih := apply_eq d P (L.filter fun t => t.index ≠ m) h2 (by
      intro t ht
      obtain ⟨ht, hne⟩ := List.mem_filter.1 ht
      have := List.mem_cons.1 (h t ht)
      simp at hne
      tauto)
    have hsplit : apply L d = coeffAt L m * d m + apply (L.filter fun t => t.index ≠ m) d := by
      rw [coeffAt, apply, apply]
      clear ih h
      induction L with
      | nil => simp
      | cons t L ihL =>
        by_cases e : t.index = m
        · simp [e, ihL]; ring
        · simp [e, ihL]; ring
    rw [hsplit, ih, List.map_cons, List.sum_cons]
    congr 2
    refine List.map_congr_left fun a ha => ?_
    congr 1
    rw [coeffAt, coeffAt, List.filter_filter]
    congr 2
    refine List.filter_congr fun t _ => ?_
    by_cases e : t.index = a
    · have : a ≠ m := fun e' => h1 (e' ▸ ha)
      simp [e, this]
    · simp [e]

/-- **C59.** If no term is of order above 5, `split` returns the dictionary of the coefficients that are not zero; it stands for the same
operator. -/
theorem C59_split (vars : List K) (L : List (OpTerm K)) (hc : ∀ t ∈ L, t.coeff ≠ 0) (hl : ∀ t ∈ L, t.index.length = vars.length)
    (h5 : ∀ t ∈ L, t.index.sum ≤ 5) :
    ∃ D, op_split vars.length (argsOf vars L) = .ok D ∧ (D.map Prod.fst).Nodup ∧ (∀ a c, (a, c) ∈ D ↔ c = coeffAt L a ∧ c ≠ 0) ∧
      ∀ d, applyDict D d = apply L d := by
  have h := split_fold vars L hc hl (mult vars.length) [] rfl
  have e1 : (L.filter fun t => t.index ∉ ([] : List (List ℕ))) = L := by simp
  have e2 : (L.filter fun t => t.index ∉ [] ++ mult vars.length) = [] := by
    rw [List.filter_eq_nil_iff]
    intro t ht
    simpa using mem_mult.2 ⟨hl t ht, h5 t ht⟩
  have e3 : dictOf L [] = [] := rfl
  rw [e1, e2, e3] at h
  have hn : (mult vars.length).Nodup := (mult_sorted vars.length).imp ne_of_lt
  refine ⟨dictOf L (mult vars.length), ?_, ?_, ?_, ?_⟩
  · rw [op_split, h]
    rw [if_neg (by simp [argsOf])]
    rfl
  · have : (dictOf L (mult vars.length)).map Prod.fst = (mult vars.length).filter fun m => coeffAt L m ≠ 0 := by
      rw [dictOf, List.map_filterMap]
      clear h e2 hn
      induction mult vars.length with
      | nil => rfl
      | cons m P ih =>
        by_cases h0 : coeffAt L m = 0
        · simp [h0, ih]
        · simp [h0, ih]
    rw [this]
    exact hn.filter _
  · intro a c
    rw [dictOf, List.mem_filterMap]
    constructor
    · rintro ⟨m, -, hm⟩
      split at hm
      · cases hm
      · rename_i h0
        cases hm
        exact ⟨rfl, h0⟩
    · rintro ⟨rfl, h0⟩
      refine ⟨a, ?_, by rw [if_neg h0]⟩
      by_contra ha
      apply h0
      rw [coeffAt]
      have : (L.filter fun t => t.index = a) = [] := by
        rw [List.filter_eq_nil_iff]
        intro t ht e
        have e : t.index = a := by simpa using e
        exact ha (e ▸ mem_mult.2 ⟨hl t ht, h5 t ht⟩)
      rw [this]
      rfl
  · intro d
    rw [apply_eq d (mult vars.length) L hn fun t ht => mem_mult.2 ⟨hl t ht, h5 t ht⟩, applyDict, dictOf]
    clear h e2 hn
    induction mult vars.length with
    | nil => rfl
    | cons m P ih =>
      by_cases h0 : coeffAt L m = 0
      · simp [h0, ih]
      · simp [h0, ih]

/-- **C59.** With a term of order above 5 it raises. -/
theorem C59_raises (vars : List K) (L : List (OpTerm K)) (hc : ∀ t ∈ L, t.coeff ≠ 0) (hl : ∀ t ∈ L, t.index.length = vars.length)
    (h : ∃ t ∈ L, 5 < t.index.sum) : op_split vars.length (argsOf vars L) = .throws := by
  obtain ⟨t, ht, h5⟩ := h
  have h := split_fold vars L hc hl (mult vars.length) [] rfl
  have e1 : (L.filter fun t => t.index ∉ ([] : List (List ℕ))) = L := by simp
  have e3 : dictOf L [] = [] := rfl
  rw [e1, e3] at h
  rw [op_split, h, if_pos]
  rw [argsOf, List.length_map]
  refine (List.length_pos_iff.2 (List.ne_nil_of_mem (a := t) (List.mem_filter.2 ⟨ht, ?_⟩))).ne'
  simp only [List.nil_append, decide_eq_true_eq]
  intro hm
  have := (mem_mult.1 hm).2
  omega

/-- The summand `f^2`, in one variable. -/
noncomputable def squareArg (x : K) : OpArg K := fun m => testDeriv x (m.getD 0 0) 0 ^ 2

/-- Beyond linear operators: nothing is raised for `f^2`, which is taken for `f`. -/
theorem C59_nonlinear_unchecked [Nontrivial K] (x : K) :
    op_split 1 [squareArg x] = .ok [([0], 1)] ∧ op_split 1 (argsOf [x] [⟨1, [0]⟩]) = .ok [([0], 1)] := by
  have h0 : testDeriv x 0 0 = 1 := testDeriv_self x 0
  have hm : mult 1 = [[0], [1], [2], [3], [4], [5]] := by decide
  constructor
  · have h1 : opSplitStep ([squareArg x], ([] : List (List ℕ × K))) [0] = ([], [([0], 1)]) := by
      simp [opSplitStep, squareArg, h0]
    rw [op_split, hm, List.foldl_cons, h1]
    simp [opSplitStep]
  · have h1 : opSplitStep (argsOf [x] [⟨1, [0]⟩], ([] : List (List ℕ × K))) [0] = ([], [([0], 1)]) := by
      have : linearArg [x] 1 [0] [0] = 1 := linearArg_self _ _ _
      simp [opSplitStep, argsOf, this]
    rw [op_split, hm, List.foldl_cons, h1]
    simp [opSplitStep]

/-- The operator `-x f_x + 3 f_xx + f_xy - f_y` with coefficients in the field of rational numbers at the point `(2, 7)`; its dictionary. -/
example : ∃ D, op_split 2 (argsOf [(2 : ℚ), 7] [⟨-2, [1, 0]⟩, ⟨3, [2, 0]⟩, ⟨1, [1, 1]⟩, ⟨-1, [0, 1]⟩, ⟨4, [2, 0]⟩]) = .ok D ∧
    ([2, 0], 7) ∈ D ∧ ([1, 1], 1) ∈ D ∧ ∀ c, ([0, 0], c) ∉ D := by
  obtain ⟨D, h1, -, h2, -⟩ := C59_split [(2 : ℚ), 7] [⟨-2, [1, 0]⟩, ⟨3, [2, 0]⟩, ⟨1, [1, 1]⟩, ⟨-1, [0, 1]⟩, ⟨4, [2, 0]⟩]
    (by simp) (by simp) (by simp)
  refine ⟨D, h1, (h2 _ _).2 (by norm_num [coeffAt]), (h2 _ _).2 (by norm_num [coeffAt]), fun c hc => ?_⟩
  have := (h2 _ _).1 hc
  simp [coeffAt] at this

end Hermipy.Props
