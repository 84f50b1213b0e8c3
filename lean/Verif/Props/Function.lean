import Verif.Lemmas.FunctionSplit

/-! # Properties C50, C51: `Function.split` and `Function.project` -/

namespace Hermipy.Props

open Spec

variable {F : Type}

/-- C50. Each term is split into groups that multiply back to it, have disjoint variable sets covering the directions, depend only on
their own variables, and are as fine as possible. -/
theorem C50_split {f : Fn F} (h : FnOk f) : ∃ gs, split f = .ok gs ∧ List.Forall₂ (fun args g => SplitOk f.dirs args g) f.terms gs := by
  refine ⟨_, split_ok h, ?_⟩
  rw [List.forall₂_map_right_iff, List.forall₂_same]
  intro args hargs
  exact splitOk_of_groups (splitTerm_ok h.nodup (h.vars args hargs))

/-- C50. The groups do not depend on the order of the factors, but for their own order. -/
theorem C50_order {dirs : List ℕ} (hd : dirs.Pairwise (· < ·)) {args args' : List (Factor F)} (hp : args.Perm args')
    (ha : ∀ a ∈ args, ∀ x ∈ a.1, x ∈ dirs) :
    ∃ g g', split (F := F) ⟨dirs, [args]⟩ = .ok [g] ∧ split (F := F) ⟨dirs, [args']⟩ = .ok [g'] ∧ g.Perm g' := by
  have ha' : ∀ a ∈ args', ∀ x ∈ a.1, x ∈ dirs := fun a h => ha a (hp.symm.subset h)
  have hn : dirs.Nodup := hd.imp fun h => Nat.ne_of_lt h
  exact ⟨_, _, split_ok ⟨hd, by simpa using ha⟩, split_ok ⟨hd, by simpa using ha'⟩,
    ((splitTerm_ok hn ha).perm hp (splitTerm_ok hn ha')).map _⟩

/-- C50, with `legacy=True`: the constant is the product of the constant factors; if no factor has two variables there is a function
for each direction, otherwise one function for all; in both cases everything multiplies back to the term. -/
theorem C50_legacy [DecidableEq F] {f : Fn F} (h : FnOk f) : ∃ rs, split_legacy f = .ok rs ∧
    List.Forall₂ (fun (args : List (Factor F)) r => r.2 = Multiset.filter (fun a => a.1 = ∅) (args : Product F) ∧
      (r.1.map Prod.snd).sum + r.2 = (args : Product F) ∧
      ((∀ a ∈ args, a.1.card ≤ 1) → r.1.map Prod.fst = f.dirs.map (fun d => [d]) ∧ ∀ e ∈ r.1, ∀ a ∈ e.2, ∃ d, e.1 = [d] ∧ a.1 = {d}) ∧
      ((∃ a ∈ args, 2 ≤ a.1.card) → r.1.map Prod.fst = [f.dirs])) f.terms rs := by
  have key : ∀ args ∈ f.terms, ∃ r : List (List ℕ × Product F) × Product F, (do
      let result := splitTerm f.dirs args
      let multiplicator ← dictGet ∅ result
      let fns ← if result.length = f.dirs.length + 1 then
          f.dirs.mapM fun d => do
            let v ← dictGet {d} result
            mkFunction v [d]
        else do
          let fn ← mkFunction ((args : Product F) - multiplicator) f.dirs
          .ok [fn]
      .ok (fns, multiplicator)) = .ok r ∧ (r.2 = Multiset.filter (fun a => a.1 = ∅) (args : Product F) ∧
      (r.1.map Prod.snd).sum + r.2 = (args : Product F) ∧
      ((∀ a ∈ args, a.1.card ≤ 1) → r.1.map Prod.fst = f.dirs.map (fun d => [d]) ∧ ∀ e ∈ r.1, ∀ a ∈ e.2, ∃ d, e.1 = [d] ∧ a.1 = {d}) ∧
      ((∃ a ∈ args, 2 ≤ a.1.card) → r.1.map Prod.fst = [f.dirs])) := by
    intro args hargs
    have hv := h.vars args hargs
    have hg := splitTerm_ok h.nodup hv
    obtain ⟨e0, he0, hee0⟩ := List.mem_map.1 hg.empty
    have hget : dictGet ∅ (splitTerm f.dirs args) = .ok (Multiset.filter (fun a => a.1 = ∅) (args : Product F)) := by
      rw [← hee0, dictGet_ok hg.nodup he0, hg.const e0 he0 hee0, hee0]
    have hsep := hg.separable h.nodup
    dsimp only
    rw [hget, Out.ok_bind]
    by_cases hl : (splitTerm f.dirs args).length = f.dirs.length + 1
    · rw [if_pos hl]
      have hone := hsep.1 hl
      have hkeys := (hg.length h.nodup).1 hl
      have hm : (f.dirs.mapM fun d => do
          let v ← dictGet {d} (splitTerm f.dirs args)
          mkFunction v [d]) = .ok (f.dirs.map fun d => ([d], Multiset.filter (fun a => a.1 = {d}) (args : Product F))) := by
        refine mapM_ok fun d hd => ?_
        obtain ⟨e, he, hee⟩ := List.mem_map.1 (hkeys d hd)
        rw [← hee, dictGet_ok hg.nodup he, Out.ok_bind, hg.value e he (by rw [hee]; exact Finset.singleton_ne_empty d), hee]
        have : Multiset.filter (fun a : Factor F => a.1 ≠ ∅ ∧ a.1 ⊆ {d}) (args : Product F) =
            Multiset.filter (fun a => a.1 = {d}) (args : Product F) := by
          refine Multiset.filter_congr fun a _ => ?_
          constructor
          · rintro ⟨h1, h2⟩
            exact (Finset.subset_singleton_iff.1 h2).resolve_left h1
          · intro h1
            rw [h1]
            exact ⟨Finset.singleton_ne_empty d, Finset.Subset.refl _⟩
        rw [this, mkFunction_ok (List.pairwise_singleton _ _)]
        intro a ha x hx
        rw [(Multiset.mem_filter.1 ha).2] at hx
        simpa using hx
      rw [hm, Out.ok_bind]
      refine ⟨_, rfl, rfl, ?_, ?_, ?_⟩
      · dsimp only
        rw [List.map_map]
        have := sum_filter f.dirs (fun d (a : Factor F) => a.1 = {d}) (fun a => a.1 ≠ ∅) (args : Product F) (by
          refine h.nodup.imp ?_
          intro d d' hne a _ h1 h2
          exact hne (Finset.singleton_injective (h1.symm.trans h2))) (by
          intro a ha
          have ha : a ∈ args := by simpa using ha
          constructor
          · intro hne
            obtain ⟨x, hx⟩ := Finset.nonempty_iff_ne_empty.2 hne
            refine ⟨x, hv a ha x hx, ?_⟩
            ext y
            rw [Finset.mem_singleton]
            constructor
            · intro hy; exact Finset.card_le_one.1 (hone a ha) y hy x hx
            · rintro rfl; exact hx
          · rintro ⟨d, _, hd⟩
            rw [hd]
            exact Finset.singleton_ne_empty d)
        have e1 : (Prod.snd ∘ fun d => (([d], Multiset.filter (fun a : Factor F => a.1 = {d}) (args : Product F)) : List ℕ × Product F)) =
          fun d => Multiset.filter (fun a : Factor F => a.1 = {d}) (args : Product F) := rfl
        rw [e1, this, add_comm]
        exact Multiset.filter_add_not (fun a : Factor F => a.1 = ∅) (args : Product F)
      · intro _
        refine ⟨by simp, ?_⟩
        intro e he a ha
        obtain ⟨d, _, rfl⟩ := List.mem_map.1 he
        have ha : a ∈ Multiset.filter (fun a : Factor F => a.1 = {d}) (args : Product F) := ha
        rw [Multiset.mem_filter] at ha
        exact ⟨d, rfl, ha.2⟩
      · rintro ⟨a, ha, h2⟩
        have := hone a ha
        omega
    · rw [if_neg hl]
      have hsub : (args : Product F) - Multiset.filter (fun a => a.1 = ∅) (args : Product F) =
          Multiset.filter (fun a => ¬ a.1 = ∅) (args : Product F) := by
        have := Multiset.filter_add_not (fun a : Factor F => a.1 = ∅) (args : Product F)
        rw [tsub_eq_of_eq_add]
        rw [add_comm, this]
      rw [hsub, mkFunction_ok (h.sorted.imp Nat.le_of_lt)]
      · simp only [Out.ok_bind]
        refine ⟨_, rfl, rfl, ?_, ?_, ?_⟩
        · simp only [List.map_cons, List.map_nil, List.sum_cons, List.sum_nil, add_zero]
          rw [add_comm]
          exact Multiset.filter_add_not _ _
        · intro hc
          exact absurd (hsep.2 hc) hl
        · intro _
          rfl
      · intro a ha x hx
        exact hv a (by simpa using (Multiset.mem_filter.1 ha).1) x hx
  choose! r hr1 hr2 using key
  refine ⟨f.terms.map r, mapM_ok hr1, ?_⟩
  rw [List.forall₂_map_right_iff, List.forall₂_same]
  exact hr2

/-- C51 (partial: only if no factor couples `dirs` to other variables; for the other case see `C51_single` and `C51_false`).
`project` returns the product of exactly the factors that depend on `dirs`, with the constants if the lowest direction is among them. -/
theorem C51_project_partial {f : Fn F} (h : FnOk f) {args : List (Factor F)} (ht : f.terms = [args]) {d0 : ℕ} {ds : List ℕ}
    (hd : f.dirs = d0 :: ds) {dirs : List ℕ} (hs : dirs.Pairwise (· ≤ ·)) (hc : ¬ Couples args dirs) :
    fn_project f dirs = .ok (dirs, partOn args d0 dirs) :=
  fn_project_ok h ht hd hs hc

/-- C51 in full for a single direction: if a factor couples it to others, `project` raises. -/
theorem C51_single {f : Fn F} (h : FnOk f) {args : List (Factor F)} (ht : f.terms = [args]) {d0 : ℕ} {ds : List ℕ}
    (hd : f.dirs = d0 :: ds) (d : ℕ) :
    (¬ Couples args [d] → fn_project f [d] = .ok ([d], partOn args d0 [d])) ∧ (Couples args [d] → fn_project f [d] = .throws) := by
  refine ⟨fn_project_ok h ht hd (List.pairwise_singleton _ _), ?_⟩
  rintro ⟨a, ha, ⟨x, hx, hxd⟩, y, hy, hyd⟩
  have hg := splitTerm_ok h.nodup (h.vars args (by simp [ht]))
  obtain ⟨e, he, hs⟩ := hg.inside a ha
  rw [fn_project_eq h ht hd, projectLoop_throws]
  · rfl
  · refine ⟨e, he, ?_, by simp, ?_⟩
    · rw [insideB, decide_eq_false_iff_not]
      rintro ⟨h1, _⟩
      exact hyd (h1 y (hs hy))
    · intro z hz
      rw [List.mem_singleton] at hxd hz
      rw [hz, ← hxd]
      exact hs hx

/-- C51. Whatever `project` returns, it contains no factor that does not lie within `dirs`; and it raises exactly if a group of the
split contains `dirs` and more. -/
theorem C51_raises_iff {f : Fn F} (h : FnOk f) {args : List (Factor F)} (ht : f.terms = [args]) {d0 : ℕ} {ds : List ℕ}
    (hd : f.dirs = d0 :: ds) {dirs : List ℕ} (hs : dirs.Pairwise (· ≤ ·)) (hne : dirs ≠ []) :
    (fn_project f dirs = .throws ↔ ∃ gs, split f = .ok [gs] ∧ ∃ e ∈ gs, (∀ x ∈ dirs, x ∈ e.1) ∧ ∃ y ∈ e.1, y ∉ dirs) ∧
    ∀ r, fn_project f dirs = .ok r → ∀ a ∈ r.2, ∀ x ∈ a.1, x ∈ dirs := by
  have hg := splitTerm_ok h.nodup (h.vars args (by simp [ht]))
  have hsplit := split_ok h
  rw [ht] at hsplit
  have hiff : (∃ gs, split f = .ok [gs] ∧ ∃ e ∈ gs, (∀ x ∈ dirs, x ∈ e.1) ∧ ∃ y ∈ e.1, y ∉ dirs) ↔
      ∃ e ∈ splitTerm f.dirs args, insideB dirs e = false ∧ dirs ≠ [] ∧ ∀ x ∈ dirs, x ∈ e.1 := by
    constructor
    · rintro ⟨gs, hgs, e, he, h1, y, hy, hyd⟩
      rw [hsplit] at hgs
      have := Out.ok.inj hgs
      simp only [List.map_cons, List.map_nil, List.cons.injEq, and_true] at this
      rw [← this] at he
      obtain ⟨e', he', rfl⟩ := List.mem_map.1 he
      refine ⟨e', he', ?_, hne, h1⟩
      rw [insideB, decide_eq_false_iff_not]
      exact fun hc => hyd (hc.1 y hy)
    · rintro ⟨e, he, h1, _, h2⟩
      refine ⟨_, hsplit, _, List.mem_map_of_mem he, h2, ?_⟩
      rw [insideB, decide_eq_false_iff_not] at h1
      by_contra hall
      push Not at hall
      obtain ⟨d, hd'⟩ := List.exists_mem_of_ne_nil dirs hne
      exact h1 ⟨hall, fun h0 => Finset.notMem_empty d (h0 ▸ h2 d hd')⟩
  rw [hiff]
  have hin : ∀ a ∈ (if d0 ∈ dirs then Multiset.filter (fun a => a.1 = ∅) (args : Product F) else 0) +
      (((splitTerm f.dirs args).filter (insideB dirs)).map Prod.snd).sum, ∀ x ∈ a.1, x ∈ dirs := by
    intro a ha x hx
    rw [Multiset.mem_add] at ha
    rcases ha with ha | ha
    · split at ha
      · rw [(Multiset.mem_filter.1 ha).2] at hx
        exact absurd hx (Finset.notMem_empty x)
      · exact absurd ha (Multiset.notMem_zero a)
    · have key : ∀ (l : List (Product F)), a ∈ l.sum → ∃ m ∈ l, a ∈ m := by
        intro l
        induction l with
        | nil => simp
        | cons m l ih =>
          rw [List.sum_cons, Multiset.mem_add]
          rintro (h | h)
          · exact ⟨m, List.mem_cons_self, h⟩
          · obtain ⟨m', h1, h2⟩ := ih h
            exact ⟨m', List.mem_cons_of_mem _ h1, h2⟩
      obtain ⟨m, hm, ham⟩ := key _ ha
      obtain ⟨e, he, rfl⟩ := List.mem_map.1 hm
      rw [List.mem_filter, insideB, decide_eq_true_eq] at he
      exact he.2.1 x (hg.own he.1 a ham hx)
  by_cases hex : ∃ e ∈ splitTerm f.dirs args, insideB dirs e = false ∧ dirs ≠ [] ∧ ∀ x ∈ dirs, x ∈ e.1
  · rw [fn_project_eq h ht hd, projectLoop_throws hex]
    exact ⟨⟨fun _ => hex, fun _ => rfl⟩, fun r hr => by simp at hr⟩
  · rw [fn_project_eq h ht hd, projectLoop_ok (fun e he h1 h2 => hex ⟨e, he, h1, h2⟩), Out.ok_bind, mkFunction_ok hs hin]
    refine ⟨⟨fun h => by simp at h, fun h => absurd h hex⟩, ?_⟩
    intro r hr
    rw [← Out.ok.inj hr]
    exact hin

/-- C51. The projections over blocks that partition the directions and are not coupled to each other multiply back to the function. -/
theorem C51_blocks {f : Fn F} (h : FnOk f) {args : List (Factor F)} (ht : f.terms = [args]) (hne : f.dirs ≠ [])
    {Ds : List (List ℕ)} (hs : ∀ D ∈ Ds, D.Pairwise (· ≤ ·)) (hdis : Ds.Pairwise fun D D' => ∀ x ∈ D, x ∉ D')
    (hcov : ∀ x ∈ f.dirs, ∃ D ∈ Ds, x ∈ D) (hc : ∀ D ∈ Ds, ¬ Couples args D) :
    ∃ ps, Ds.mapM (fn_project f) = .ok ps ∧ ps.map Prod.fst = Ds ∧ (ps.map Prod.snd).sum = (args : Product F) := by
  classical
  obtain ⟨d0, ds, hd⟩ := List.exists_cons_of_ne_nil hne
  refine ⟨Ds.map fun D => (D, partOn args d0 D), mapM_ok fun D hD => fn_project_ok h ht hd (hs D hD) (hc D hD), by
    rw [List.map_map]; exact List.map_id Ds, ?_⟩
  have hv := h.vars args (by simp [ht])
  rw [List.map_map]
  have e1 : (Prod.snd ∘ fun D => ((D, partOn args d0 D) : List ℕ × Product F)) = fun D => partOn args d0 D := rfl
  rw [e1]
  unfold partOn
  rw [sum_filter Ds (fun D (a : Factor F) => (∃ x ∈ a.1, x ∈ D) ∨ (a.1 = ∅ ∧ d0 ∈ D)) (fun _ => True) (args : Product F)]
  · simp
  · refine List.Pairwise.imp_of_mem ?_ hdis
    rintro D D' hD hD' hne a ha (⟨x, hx, hxD⟩ | ⟨h0, hdD⟩) (⟨y, hy, hyD⟩ | ⟨h0', hdD'⟩)
    · exact hc D hD ⟨a, by simpa using ha, ⟨x, hx, hxD⟩, y, hy, fun hyD' => hne y hyD' hyD⟩
    · rw [h0'] at hx; exact Finset.notMem_empty x hx
    · rw [h0] at hy; exact Finset.notMem_empty y hy
    · exact hne d0 hdD hdD'
  · intro a ha
    simp only [true_iff]
    have ha : a ∈ args := by simpa using ha
    by_cases h0 : a.1 = ∅
    · obtain ⟨D, hD, hdD⟩ := hcov d0 (by rw [hd]; exact List.mem_cons_self)
      exact ⟨D, hD, Or.inr ⟨h0, hdD⟩⟩
    · obtain ⟨x, hx⟩ := Finset.nonempty_iff_ne_empty.2 h0
      obtain ⟨D, hD, hxD⟩ := hcov x (hv a ha x hx)
      exact ⟨D, hD, Or.inl ⟨x, hx, hxD⟩⟩

/-- C51 is false: the function `x0 * exp(x1*x2)` is projected on the directions 0 and 1 to `x0`; the factor that couples `x1` to `x2`
is dropped without an error. -/
theorem C51_false : ∃ f : Fn String, FnOk f ∧ f.terms = [[({0}, "x0"), ({1, 2}, "exp(x1*x2)")]] ∧
    Couples [(({0} : Finset ℕ), "x0"), ({1, 2}, "exp(x1*x2)")] [0, 1] ∧ fn_project f [0, 1] = .ok ([0, 1], {({0}, "x0")}) := by
  refine ⟨⟨[0, 1, 2], [[({0}, "x0"), ({1, 2}, "exp(x1*x2)")]]⟩, ⟨by simp, by decide⟩, rfl,
    ⟨({1, 2}, "exp(x1*x2)"), by simp, ⟨1, by simp, by simp⟩, 2, by simp, by simp⟩, ?_⟩
  rw [fn_project_eq ⟨by simp, by decide⟩ rfl rfl]
  have hsplit : splitTerm [0, 1, 2] [(({0} : Finset ℕ), "x0"), ({1, 2}, "exp(x1*x2)")] =
      [({0}, {({0}, "x0")}), (∅, 0), ({2, 1}, {({1, 2}, "exp(x1*x2)")})] := by decide
  rw [hsplit]
  have : projectLoop [0, 1] [(({0} : Finset ℕ), ({({0}, "x0")} : Product String)), (∅, 0), ({2, 1}, {({1, 2}, "exp(x1*x2)")})]
      (if 0 ∈ [0, 1] then Multiset.filter (fun a : Factor String => a.1 = ∅)
        ([(({0} : Finset ℕ), "x0"), ({1, 2}, "exp(x1*x2)")] : List (Factor String)) else 0) = .ok {({0}, "x0")} := by decide
  rw [this, Out.ok_bind, mkFunction_ok (by simp [isSorted])]
  simp

/-- A function of three variables with a constant, a coupled pair and a lone variable: hypotheses of C50 and C51. -/
example : FnOk (⟨[0, 1, 3], [[(∅, "2"), ({0, 3}, "cos(x0*x3)"), ({1}, "x1"), ({0}, "x0")]]⟩ : Fn String) ∧
    ¬ Couples [((∅ : Finset ℕ), "2"), ({0, 3}, "cos(x0*x3)"), ({1}, "x1"), ({0}, "x0")] [0, 3] ∧
    Couples [((∅ : Finset ℕ), "2"), ({0, 3}, "cos(x0*x3)"), ({1}, "x1"), ({0}, "x0")] [3] := by
  refine ⟨⟨by simp, ?_⟩, ?_, ?_⟩
  · decide
  · unfold Couples; decide
  · unfold Couples; decide

end Hermipy.Props
