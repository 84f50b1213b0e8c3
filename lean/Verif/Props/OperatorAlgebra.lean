import Verif.Lemmas.OperatorLeibniz
import Verif.Spec.Smooth

/-! # C76: the arithmetic of operators -/

namespace Hermipy.Props
open Hermipy Hermipy.Spec

variable {K : Type} [CommRing K] [DecidableEq K] {D : ℕ → K → K}

theorem mkOp_normal {T : List (OpTerm K)} {fdirs dirs : List ℕ} (hw : Wide fdirs.length T) :
    Normal (mkOp T fdirs dirs).dirs (mkOp T fdirs dirs).terms := by
  rw [mkOp]
  split
  · exact ⟨by simp, by simp, by simp⟩
  · exact ⟨wide_collect hw, fun t ht => (mem_collect.1 ht).2, collect_index_nodup T⟩

theorem mkOp_acts (D : ℕ → K → K) (T : List (OpTerm K)) (fdirs dirs : List ℕ) (u : K) :
    acts D (mkOp T fdirs dirs).dirs (mkOp T fdirs dirs).terms u = acts D fdirs T u := by
  rw [mkOp]
  split
  · rename_i h
    rw [← acts_collect fdirs T, List.isEmpty_iff.1 h]
    rfl
  · exact acts_collect fdirs T u

theorem mkOp_dirs (T : List (OpTerm K)) (dirs : List ℕ) : (mkOp T dirs dirs).dirs = dirs := by
  rw [mkOp]
  split <;> rfl

theorem mkOp_coeff (T : List (OpTerm K)) (fdirs dirs m : List ℕ) : coeffAt (mkOp T fdirs dirs).terms m = coeffAt T m := by
  rw [mkOp]
  split
  · rename_i h
    rw [← coeffAt_collect T, List.isEmpty_iff.1 h]
  · exact coeffAt_collect T m

/-- **C76.** The sum of two operators in the same directions acts as the sum of the two. -/
theorem C76_add {A B : HOp K} (hA : Normal A.dirs A.terms) (hB : Normal B.dirs B.terms) (h : A.dirs = B.dirs) :
    ∃ R, op_add A (.op B) = .ok R ∧ R.dirs = A.dirs ∧ Normal R.dirs R.terms ∧
      ∀ (D : ℕ → K → K) u, acts D R.dirs R.terms u = acts D A.dirs A.terms u + acts D B.dirs B.terms u := by
  refine ⟨mkOp (A.terms ++ B.terms) A.dirs A.dirs, ?_, mkOp_dirs _ _, mkOp_normal (wide_append hA.wide (h ▸ hB.wide)), fun D u => ?_⟩
  · rw [op_add, toOp, Out.ok_bind, addOps, if_neg (by simpa using h)]
  · rw [mkOp_acts, acts_append, h]

/-- **C76.** The difference of two operators in the same directions acts as the difference of the two. -/
theorem C76_sub {A B : HOp K} (hA : Normal A.dirs A.terms) (hB : Normal B.dirs B.terms) (h : A.dirs = B.dirs) :
    ∃ R, op_sub A (.op B) = .ok R ∧ R.dirs = A.dirs ∧ Normal R.dirs R.terms ∧
      ∀ (D : ℕ → K → K) u, acts D R.dirs R.terms u = acts D A.dirs A.terms u - acts D B.dirs B.terms u := by
  refine ⟨mkOp (A.terms ++ scaleTerms (-1) B.terms) A.dirs A.dirs, ?_, mkOp_dirs _ _,
    mkOp_normal (wide_append hA.wide (wide_scale (h ▸ hB.wide))), fun D u => ?_⟩
  · rw [op_sub, toOp, Out.ok_bind, subOps, if_neg (by simpa using h)]
  · rw [mkOp_acts, acts_append, acts_scale, h]
    ring

/-- **C76.** Negation. -/
theorem C76_neg {A : HOp K} (hA : Normal A.dirs A.terms) : (op_neg A).dirs = A.dirs ∧ Normal (op_neg A).dirs (op_neg A).terms ∧
    ∀ (D : ℕ → K → K) u, acts D (op_neg A).dirs (op_neg A).terms u = - acts D A.dirs A.terms u := by
  refine ⟨mkOp_dirs _ _, mkOp_normal (wide_scale hA.wide), fun D u => ?_⟩
  rw [op_neg, mkOp_acts, acts_scale]
  ring

/-- **C76.** Multiplication by a function of the same directions, or by an expression in the variables of the operator. -/
theorem C76_mul {free : K → Finset ℕ} {A : HOp K} (hA : Normal A.dirs A.terms) {b : HArg K} {g : K}
    (hb : b = .fn ⟨g, A.dirs⟩ ∨ (b = .expr g ∧ A.dirs.Pairwise (· ≤ ·) ∧ free g ⊆ A.dirs.toFinset)) :
    ∃ R, op_mul free A b = .ok R ∧ R.dirs = A.dirs ∧ Normal R.dirs R.terms ∧
      ∀ (D : ℕ → K → K) u, acts D R.dirs R.terms u = g * acts D A.dirs A.terms u := by
  refine ⟨mkOp (scaleTerms g A.terms) A.dirs A.dirs, ?_, mkOp_dirs _ _, mkOp_normal (wide_scale hA.wide), fun D u => ?_⟩
  · rcases hb with rfl | ⟨rfl, h1, h2⟩
    · rw [op_mul, toFn, Out.ok_bind, mulFn, if_neg (by simp)]
    · rw [op_mul, toFn, mkFn, if_neg (by simpa using h1), if_neg (by simpa using h2), Out.ok_bind, mulFn, if_neg (by simp)]
  · rw [mkOp_acts, acts_scale]

/-- **C76.** An operator called with an operator is the composition, on functions of the variables of the second. -/
theorem C76_compose (h : Partials D) (free : K → Finset ℕ) {A B : HOp K} (hB : Normal B.dirs B.terms) :
    ∃ R, op_call D free A (.op B) = .ok (.op R) ∧ Normal R.dirs R.terms ∧
      ∀ u, DependsOn D B.dirs u → acts D R.dirs R.terms u = acts D A.dirs A.terms (acts D B.dirs B.terms u) := by
  refine ⟨callOp D A B, rfl, mkOp_normal (wide_subst hB.wide), fun u hu => ?_⟩
  rw [callOp, mkOp_acts, acts_subst h hB.wide hu]

/-- **C76.** An operator called with a function is applied to it, provided that the result depends on the variables of the operator only. -/
theorem C76_apply {free : K → Finset ℕ} {A : HOp K} (hs : A.dirs.Pairwise (· ≤ ·)) {g : HFn K}
    (hf : free (acts D A.dirs A.terms g.sym) ⊆ A.dirs.toFinset) :
    op_call D free A (.fn g) = .ok (.fn ⟨acts D A.dirs A.terms g.sym, A.dirs⟩) := by
  rw [op_call, callFn, mkFn, substExpr_eq, if_neg (by simpa using hs), if_neg (by simpa using hf)]
  rfl

/-- **C76.** The same for an expression other than zero. -/
theorem C76_apply_expr {free : K → Finset ℕ} {A : HOp K} (hs : A.dirs.Pairwise (· ≤ ·)) {c : K} (hc : c ≠ 0) (hfc : free c ⊆ A.dirs.toFinset)
    (hf : free (acts D A.dirs A.terms c) ⊆ A.dirs.toFinset) :
    op_call D free A (.expr c) = .ok (.fn ⟨acts D A.dirs A.terms c, A.dirs⟩) := by
  rw [op_call, if_neg hc, mkFn, if_neg (by simpa using hs), if_neg (by simpa using hfc), Out.ok_bind, callFn, mkFn, substExpr_eq,
    if_neg (by simpa using hs), if_neg (by simpa using hf)]
  rfl

/-- **C76.** `map` with the factor `g` acts as `u ↦ L (g u) / g`. -/
theorem C76_map (h : Partials D) {inv : K → K} {free : K → Finset ℕ} {A : HOp K} (hA : Normal A.dirs A.terms) {g : K} (hg : g ≠ 0) {b : HArg K}
    (hb : b = .fn ⟨g, A.dirs⟩ ∨ (b = .expr g ∧ A.dirs.Pairwise (· ≤ ·) ∧ free g ⊆ A.dirs.toFinset)) :
    ∃ R, op_map D inv free A b = .ok R ∧ R.dirs = A.dirs ∧ Normal R.dirs R.terms ∧
      (A.dirs.Nodup → ∀ m, m.length = A.dirs.length → coeffAt R.terms m = inv g * productCoeff D A.dirs A.terms g m) ∧
      ∀ u, DependsOn D A.dirs u → acts D R.dirs R.terms u = inv g * acts D A.dirs A.terms (g * u) := by
  have hw : Wide A.dirs.length (unknownTimes A.dirs g) := by
    intro t ht
    rw [unknownTimes, List.mem_singleton] at ht
    rw [ht]
    simp
  refine ⟨mkOp (scaleTerms (inv g) (substTerms D A.dirs A (unknownTimes A.dirs g))) A.dirs A.dirs, ?_, mkOp_dirs _ _,
    mkOp_normal (wide_scale (wide_subst hw)), fun hn m hm => ?_, fun u hu => ?_⟩
  · rcases hb with rfl | ⟨rfl, h1, h2⟩
    · rw [op_map, toFn, Out.ok_bind, mapFn, if_neg (by simp), if_neg hg]
    · rw [op_map, toFn, mkFn, if_neg (by simpa using h1), if_neg (by simpa using h2), Out.ok_bind, mapFn, if_neg (by simp), if_neg hg]
  · rw [mkOp_coeff, coeffAt_scale, coeffAt_subst h hn hA.wide g hm]
  · rw [mkOp_acts, acts_scale, acts_subst h hw hu, unknownTimes, acts_cons, acts_nil, add_zero, partials_none]

/-- **C76.** `map` does not raise the order. -/
theorem C76_map_order (h : Partials D) {inv : K → K} {free : K → Finset ℕ} {A R : HOp K} (hA : Normal A.dirs A.terms) (hn : A.dirs.Nodup) {g : K}
    (hg : g ≠ 0) (hR : op_map D inv free A (.fn ⟨g, A.dirs⟩) = .ok R) {n : ℕ} (ho : ∀ t ∈ A.terms, t.index.sum ≤ n) :
    ∀ t ∈ R.terms, t.index.sum ≤ n := by
  intro t ht
  obtain ⟨R', e, hd, hN, hc, -⟩ := C76_map h (inv := inv) (free := free) hA hg (Or.inl rfl)
  obtain rfl : R' = R := Out.ok.inj (e.symm.trans hR)
  have hl : t.index.length = A.dirs.length := by rw [hN.wide t ht, hd]
  have h1 := hc hn _ hl
  have h2 : coeffAt R'.terms t.index ≠ 0 := by
    rw [coeffAt_of_mem hN.distinct ht]
    exact hN.nonzero t ht
  rw [h1] at h2
  have h3 : productCoeff D A.dirs A.terms g t.index ≠ 0 := fun hc => h2 (by rw [hc, mul_zero])
  rw [productCoeff] at h3
  obtain ⟨s, hs, hne⟩ : ∃ s ∈ A.terms, s.coeff * leibniz D g A.dirs s.index t.index ≠ 0 := by
    by_contra hc
    push Not at hc
    apply h3
    apply List.sum_eq_zero
    intro x hx
    obtain ⟨s, hs, rfl⟩ := List.mem_map.1 hx
    exact hc s hs
  exact (leibniz_le h g (hA.wide s hs) hl (right_ne_zero_of_mul hne)).trans (ho s hs)

/-- **C76.** Applying `map` to two operators and composing them is the same as composing them and applying `map`. -/
theorem C76_map_compose (h : Partials D) {inv : K → K} {free : K → Finset ℕ} {A B C A' B' C' : HOp K} (hA : Normal A.dirs A.terms)
    (hB : Normal B.dirs B.terms) (hAB : A.dirs = B.dirs) {g : K} (hg : g ≠ 0) (hi : g * inv g = 1)
    (hC : op_call D free A (.op B) = .ok (.op C)) (hA' : op_map D inv free A (.fn ⟨g, A.dirs⟩) = .ok A')
    (hB' : op_map D inv free B (.fn ⟨g, A.dirs⟩) = .ok B') (hC' : op_map D inv free C (.fn ⟨g, A.dirs⟩) = .ok C') {u : K}
    (hall : ∀ v, DependsOn D A.dirs v) :
    acts D C'.dirs C'.terms u = acts D A'.dirs A'.terms (acts D B'.dirs B'.terms u) := by
  obtain ⟨R, e, hN, hc⟩ := C76_compose h free (A := A) hB
  obtain rfl : R = C := by
    have := Out.ok.inj (e.symm.trans hC)
    exact HRes.op.inj this
  have hRd : R.dirs = A.dirs := by
    have := HRes.op.inj (Out.ok.inj hC)
    rw [← this, callOp, hAB, mkOp_dirs]
  obtain ⟨A1, e1, -, -, -, a1⟩ := C76_map h (inv := inv) (free := free) hA hg (Or.inl rfl)
  obtain rfl := Out.ok.inj (e1.symm.trans hA')
  obtain ⟨B1, e2, -, -, -, a2⟩ := C76_map h (inv := inv) (free := free) hB hg (Or.inl rfl)
  rw [← hAB] at e2
  obtain rfl := Out.ok.inj (e2.symm.trans hB')
  obtain ⟨C1, e3, -, -, -, a3⟩ := C76_map h (inv := inv) (free := free) hN hg (Or.inl rfl)
  rw [hRd] at e3
  obtain rfl := Out.ok.inj (e3.symm.trans hC')
  rw [a3 u (hRd ▸ hall u), hc _ (hAB ▸ hall _), a1 _ (hall _), a2 _ (hAB ▸ hall u), ← mul_assoc g, hi, one_mul]

/-- **C76.** Adding zero, as `sum` does, leaves the action as it is, also if the zero is a `Function` in other directions; so does
subtracting zero. -/
theorem C76_add_zero {A : HOp K} (hA : Normal A.dirs A.terms) {b : HArg K} (hb : b = .expr 0 ∨ ∃ dirs, b = .fn ⟨0, dirs⟩) :
    ∃ R S, op_add A b = .ok R ∧ op_sub A b = .ok S ∧ R.dirs = A.dirs ∧ S.dirs = A.dirs ∧ Normal R.dirs R.terms ∧ Normal S.dirs S.terms ∧
      ∀ (D : ℕ → K → K) u, acts D R.dirs R.terms u = acts D A.dirs A.terms u ∧ acts D S.dirs S.terms u = acts D A.dirs A.terms u := by
  have ht : toOp A.dirs b = .ok ⟨A.dirs, []⟩ := by
    rcases hb with rfl | ⟨dirs, rfl⟩ <;> rw [toOp, opOfExpr, if_pos rfl]
  have hw : Normal (mkOp (A.terms ++ []) A.dirs A.dirs).dirs (mkOp (A.terms ++ []) A.dirs A.dirs).terms :=
    mkOp_normal (by rw [List.append_nil]; exact hA.wide)
  have ha : ∀ (D : ℕ → K → K) u, acts D (mkOp (A.terms ++ []) A.dirs A.dirs).dirs (mkOp (A.terms ++ []) A.dirs A.dirs).terms u =
      acts D A.dirs A.terms u := fun D u => by rw [mkOp_acts, List.append_nil]
  refine ⟨_, _, ?_, ?_, mkOp_dirs (A.terms ++ []) A.dirs, mkOp_dirs (A.terms ++ []) A.dirs, hw, hw, fun D u => ⟨ha D u, ha D u⟩⟩
  · rw [op_add, ht, Out.ok_bind, addOps, if_neg (by simp)]
  · rw [op_sub, ht, Out.ok_bind, subOps, if_neg (by simp)]; rfl

/-- **C76.** What is rejected: operators or functions in other directions, a summand which is a function other than zero, a product of two
operators, an expression in other variables, and the factor zero. -/
theorem C76_rejects (D : ℕ → K → K) (inv : K → K) (free : K → Finset ℕ) (A : HOp K) :
    (∀ B : HOp K, B.dirs ≠ A.dirs → op_add A (.op B) = .throws ∧ op_sub A (.op B) = .throws) ∧
    (∀ c, c ≠ 0 → op_add A (.expr c) = .throws ∧ op_sub A (.expr c) = .throws ∧
      ∀ dirs, op_add A (.fn ⟨c, dirs⟩) = .throws ∧ op_sub A (.fn ⟨c, dirs⟩) = .throws) ∧
    (∀ g : HFn K, g.dirs ≠ A.dirs → op_mul free A (.fn g) = .throws ∧ op_map D inv free A (.fn g) = .throws) ∧
    (∀ B : HOp K, op_mul free A (.op B) = .throws ∧ op_map D inv free A (.op B) = .throws) ∧
    (∀ c, ¬ (A.dirs.Pairwise (· ≤ ·) ∧ free c ⊆ A.dirs.toFinset) →
      op_mul free A (.expr c) = .throws ∧ op_map D inv free A (.expr c) = .throws ∧ (c ≠ 0 → op_call D free A (.expr c) = .throws)) ∧
    (∀ g : HFn K, ¬ (A.dirs.Pairwise (· ≤ ·) ∧ free (acts D A.dirs A.terms g.sym) ⊆ A.dirs.toFinset) → op_call D free A (.fn g) = .throws) ∧
    (∀ dirs, op_map D inv free A (.fn ⟨0, dirs⟩) = .throws) ∧ op_map D inv free A (.expr 0) = .throws := by
  have hfn : ∀ c, ¬ (A.dirs.Pairwise (· ≤ ·) ∧ free c ⊆ A.dirs.toFinset) → mkFn free c A.dirs = .throws := by
    intro c h
    rw [mkFn]
    split
    · rfl
    · rename_i h1
      rw [if_pos]
      intro h2
      exact h ⟨not_not.1 h1, h2⟩
  refine ⟨fun B h => ⟨?_, ?_⟩, fun c hc => ⟨?_, ?_, fun dirs => ⟨?_, ?_⟩⟩, fun g h => ⟨?_, ?_⟩, fun B => ⟨rfl, rfl⟩, fun c h => ⟨?_, ?_, fun hc => ?_⟩,
    fun g h => ?_, fun dirs => ?_, ?_⟩
  · rw [op_add, toOp, Out.ok_bind, addOps, if_pos (Ne.symm h)]
  · rw [op_sub, toOp, Out.ok_bind, subOps, if_pos (Ne.symm h)]
  · rw [op_add, toOp, opOfExpr, if_neg hc]; rfl
  · rw [op_sub, toOp, opOfExpr, if_neg hc]; rfl
  · rw [op_add, toOp, opOfExpr, if_neg hc]; rfl
  · rw [op_sub, toOp, opOfExpr, if_neg hc]; rfl
  · rw [op_mul, toFn, Out.ok_bind, mulFn, if_pos (Ne.symm h)]
  · rw [op_map, toFn, Out.ok_bind, mapFn, if_pos h]
  · rw [op_mul, toFn, hfn c h]; rfl
  · rw [op_map, toFn, hfn c h]; rfl
  · rw [op_call, if_neg hc, hfn c h]; rfl
  · rw [op_call, callFn, substExpr_eq, hfn _ h]; rfl
  · rw [op_map, toFn, Out.ok_bind, mapFn]
    split
    · rfl
    · rw [if_pos rfl]
  · rw [op_map, toFn, mkFn]
    split
    · rfl
    · split
      · rfl
      · rw [Out.ok_bind, mapFn]
        split
        · rfl
        · rw [if_pos rfl]

/-- **C76.** Called with the expression zero, an operator returns the operator zero and not a function. -/
theorem C76_call_zero (D : ℕ → K → K) (free : K → Finset ℕ) (A : HOp K) : op_call D free A (.expr 0) = .ok (.op ⟨A.dirs, []⟩) := by
  have h : ∀ dirs index, diffsTerms D A.dirs dirs index ([] : List (OpTerm K)) = [] := by
    intro dirs
    induction dirs with
    | nil => intro index; rfl
    | cons d dirs ih =>
      intro index
      cases index with
      | nil => rfl
      | cons a index =>
        rw [diffsTerms, ih]
        induction a with
        | zero => rfl
        | succ a iha => rw [Function.iterate_succ_apply', iha]; rfl
  have hz : substTerms D A.dirs A ([] : List (OpTerm K)) = [] := by
    rw [substTerms, List.flatMap_eq_nil_iff]
    intro t _
    rw [h]
    rfl
  rw [op_call, if_pos rfl, callOp, hz]
  rfl

/-- **C76.** The directions of a composition are those of the operator called with, unless the result is zero: they are not compared. -/
theorem C76_call_dirs (D : ℕ → K → K) (free : K → Finset ℕ) (A B R : HOp K) (h : op_call D free A (.op B) = .ok (.op R)) :
    R.dirs = if R.terms = [] then A.dirs else B.dirs := by
  obtain rfl := HRes.op.inj (Out.ok.inj h)
  rw [callOp, mkOp]
  split
  · simp
  · rename_i h1
    rw [if_neg]
    simpa using h1

/-! ## The hypotheses can be met -/

/-- The coordinate of index 0 among the coordinates 0 and 1. -/
noncomputable def xs : Smooth [0, 1].length := ⟨fun x => x 0, Smooth.mem_iff.2 (contDiff_apply ℝ ℝ _)⟩

/-- `x f_x + f_yy` and `x f_y` with smooth coefficients. -/
noncomputable def opA : HOp (Smooth [0, 1].length) := ⟨[0, 1], [⟨xs, [1, 0]⟩, ⟨1, [0, 2]⟩]⟩
noncomputable def opB : HOp (Smooth [0, 1].length) := ⟨[0, 1], [⟨xs, [0, 1]⟩]⟩

theorem xs_ne : xs ≠ 0 := by
  intro h
  have := congrFun (congrArg Subtype.val h) fun _ => 1
  exact one_ne_zero this

theorem opA_normal : Normal opA.dirs opA.terms := ⟨by simp [opA], by simp [opA]; exact xs_ne, by simp [opA]⟩
theorem opB_normal : Normal opB.dirs opB.terms := ⟨by simp [opB], by simp [opB]; exact xs_ne, by simp [opB]⟩

/-- The composition of the two, on any smooth function. -/
example : ∃ R, op_call (Smooth.D [0, 1]) (fun _ => ∅) opA (.op opB) = .ok (.op R) ∧
    ∀ u, acts (Smooth.D [0, 1]) R.dirs R.terms u =
      acts (Smooth.D [0, 1]) [0, 1] opA.terms (acts (Smooth.D [0, 1]) [0, 1] opB.terms u) := by
  obtain ⟨R, e, -, h⟩ := C76_compose (Smooth.partials_ok [0, 1]) (fun _ => ∅) (A := opA) opB_normal
  exact ⟨R, e, fun u => h u (Smooth.depends [0, 1] u)⟩

end Hermipy.Props
