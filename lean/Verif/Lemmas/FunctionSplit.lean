import Verif.Lemmas.Function
import Verif.Spec.Function

/-! # `Function.split` and `Function.project` return what they should -/

namespace Hermipy

open Spec

variable {F : Type}

theorem sorted_sort (s : Finset ℕ) : (s.sort (· ≤ ·)).Pairwise (· < ·) := s.sortedLT_sort.pairwise

theorem mkFunction_ok {p : Product F} {dirs : List ℕ} (h : isSorted dirs) (hv : ∀ f ∈ p, ∀ x ∈ f.1, x ∈ dirs) :
    mkFunction p dirs = .ok (dirs, p) := by
  rw [mkFunction, if_neg (by simpa using h), if_pos]
  rintro x ⟨f, hf, hx⟩
  exact hv f hf x hx

/-- The value of a group. -/
def groupPred (k : Finset ℕ) (f : Factor F) : Prop := if k = ∅ then f.1 = ∅ else f.1 ≠ ∅ ∧ f.1 ⊆ k

instance (k : Finset ℕ) : DecidablePred (groupPred (F := F) k) := fun f => by unfold groupPred; infer_instance

theorem GroupsOk.val {U : Finset ℕ} {fs : List (Factor F)} {g : Groups F} (h : GroupsOk U fs g) {e : Finset ℕ × Product F}
    (he : e ∈ g) : e.2 = Multiset.filter (groupPred e.1) (fs : Product F) := by
  by_cases h0 : e.1 = ∅
  · rw [h.const e he h0]
    exact Multiset.filter_congr fun f _ => by simp [groupPred, h0]
  · rw [h.value e he h0]
    exact Multiset.filter_congr fun f _ => by simp [groupPred, h0]

theorem GroupsOk.own {U : Finset ℕ} {fs : List (Factor F)} {g : Groups F} (h : GroupsOk U fs g) {e : Finset ℕ × Product F}
    (he : e ∈ g) : ∀ f ∈ e.2, f.1 ⊆ e.1 := by
  intro f hf
  rw [h.val he, Multiset.mem_filter] at hf
  have := hf.2
  unfold groupPred at this
  split at this
  · rw [this]; exact Finset.empty_subset _
  · exact this.2

theorem GroupsOk.exclusive {U : Finset ℕ} {fs : List (Factor F)} {g : Groups F} (h : GroupsOk U fs g) :
    g.Pairwise fun e e' => ∀ f ∈ (fs : Product F), groupPred e.1 f → ¬ groupPred e'.1 f := by
  refine List.Pairwise.imp_of_mem ?_ (List.pairwise_map.1 h.nodup)
  intro e e' he he' hne f _ h1 h2
  unfold groupPred at h1 h2
  split at h1 <;> split at h2
  · rename_i a b; exact hne (a.trans b.symm)
  · exact h2.1 h1
  · exact h1.1 h2
  · obtain ⟨x, hx⟩ := Finset.nonempty_iff_ne_empty.2 h1.1
    exact hne (h.disjoint he he' (h1.2 hx) (h2.2 hx))

theorem GroupsOk.exhaustive {U : Finset ℕ} {fs : List (Factor F)} {g : Groups F} (h : GroupsOk U fs g) {f : Factor F} (hf : f ∈ fs) :
    ∃ e ∈ g, groupPred e.1 f := by
  by_cases h0 : f.1 = ∅
  · obtain ⟨e, he, hee⟩ := List.mem_map.1 h.empty
    exact ⟨e, he, by unfold groupPred; rw [if_pos hee]; exact h0⟩
  · obtain ⟨e, he, hs⟩ := h.inside f hf
    refine ⟨e, he, ?_⟩
    unfold groupPred
    rw [if_neg]
    · exact ⟨h0, hs⟩
    · intro h1
      rw [h1] at hs
      exact h0 (Finset.subset_empty.1 hs)

theorem GroupsOk.sum_part {U : Finset ℕ} {fs : List (Factor F)} {g : Groups F} (h : GroupsOk U fs g)
    (c : Finset ℕ × Product F → Bool) (r : Factor F → Prop) [DecidablePred r]
    (hr : ∀ f ∈ fs, r f ↔ ∃ e ∈ g, c e = true ∧ groupPred e.1 f) :
    ((g.filter c).map Prod.snd).sum = Multiset.filter r (fs : Product F) := by
  have : (g.filter c).map Prod.snd = (g.filter c).map fun e => Multiset.filter (groupPred e.1) (fs : Product F) :=
    List.map_congr_left fun e he => h.val (List.mem_filter.1 he).1
  rw [this]
  refine sum_filter _ _ _ _ (h.exclusive.sublist List.filter_sublist) ?_
  intro f hf
  rw [hr f (by simpa using hf)]
  simp only [List.mem_filter, and_assoc]

theorem GroupsOk.product {U : Finset ℕ} {fs : List (Factor F)} {g : Groups F} (h : GroupsOk U fs g) :
    (g.map Prod.snd).sum = (fs : Product F) := by
  have := h.sum_part (fun _ => true) (fun _ => True) (fun f hf => by
    simpa using h.exhaustive hf)
  simpa using this

/-- A dictionary of products as `split` returns it. -/
def asFunctions (g : Groups F) : List (Finset ℕ × (List ℕ × Product F)) := g.map fun e => (e.1, (e.1.sort (· ≤ ·), e.2))

theorem asFunctions_keys (g : Groups F) : (asFunctions g).map Prod.fst = g.map Prod.fst := by simp [asFunctions]

theorem asFunctions_vals (g : Groups F) : ((asFunctions g).map fun e => (e.1, e.2.2)) = g := by
  rw [asFunctions, List.map_map]
  exact List.map_id g

/-- The hypotheses on a function, established by its constructor (function.py:62-70): the directions are sorted, and all variables are
among them. -/
structure FnOk (f : Fn F) : Prop where
  sorted : f.dirs.Pairwise (· < ·)
  vars : ∀ args ∈ f.terms, ∀ a ∈ args, ∀ x ∈ a.1, x ∈ f.dirs

theorem FnOk.nodup {f : Fn F} (h : FnOk f) : f.dirs.Nodup := h.sorted.imp fun h => Nat.ne_of_lt h

theorem split_ok {f : Fn F} (h : FnOk f) : split f = .ok (f.terms.map fun args => asFunctions (splitTerm f.dirs args)) := by
  refine mapM_ok fun args hargs => ?_
  have hg := splitTerm_ok h.nodup (h.vars args hargs)
  refine mapM_ok fun e he => ?_
  rw [mkFunction_ok ((sorted_sort _).imp Nat.le_of_lt)]
  · rfl
  · intro a ha x hx
    rw [Finset.mem_sort]
    exact hg.own he a ha hx

theorem splitOk_of_groups {dirs : List ℕ} {args : List (Factor F)} {g : Groups F} (h : GroupsOk dirs.toFinset args g) :
    SplitOk dirs args (asFunctions g) where
  nodup := by rw [asFunctions_keys]; exact h.nodup
  constGroup := by rw [asFunctions_keys]; exact h.empty
  partition := by rw [asFunctions_keys]; exact h.partition
  directions := by
    intro e he
    obtain ⟨e', _, rfl⟩ := List.mem_map.1 he
    exact ⟨fun x => Finset.mem_sort _, sorted_sort _⟩
  own := by
    intro e he
    obtain ⟨e', he', rfl⟩ := List.mem_map.1 he
    exact h.own he'
  consts := by
    intro e he hne f hf
    obtain ⟨e', he', rfl⟩ := List.mem_map.1 he
    dsimp only at hne hf
    rw [h.value e' he' hne, Multiset.mem_filter] at hf
    exact hf.2.1
  product := by
    rw [← h.product, asFunctions, List.map_map]
    rfl
  finest := by rw [asFunctions_keys]; exact h.least

theorem GroupsOk.finer {U : Finset ℕ} {fs fs' : List (Factor F)} {g g' : Groups F} (hp : fs.Perm fs') (h : GroupsOk U fs g)
    (h' : GroupsOk U fs' g') : Finer ((g.map Prod.fst).toFinset.erase ∅) ((g'.map Prod.fst).toFinset.erase ∅) := by
  refine h.least _ h'.partition fun f hf hne => ?_
  obtain ⟨e, he, hs⟩ := h'.inside f (hp.subset hf)
  refine ⟨e.1, ?_, hs⟩
  rw [Finset.mem_erase, List.mem_toFinset]
  exact ⟨fun h0 => hne (Finset.subset_empty.1 (h0 ▸ hs)), List.mem_map_of_mem he⟩

theorem partition_antisymm {U : Finset ℕ} {P Q : Finset (Finset ℕ)} (hP : IsPartition U P) (hQ : IsPartition U Q) (h1 : Finer P Q)
    (h2 : Finer Q P) : P = Q := by
  have sub : ∀ {P Q : Finset (Finset ℕ)}, IsPartition U P → Finer P Q → Finer Q P → P ⊆ Q := by
    intro P Q hP h1 h2 b hb
    obtain ⟨c, hc, hbc⟩ := h1 b hb
    obtain ⟨d, hd, hcd⟩ := h2 c hc
    obtain ⟨x, hx⟩ := hP.nonempty b hb
    have : b = d := hP.disjoint b hb d hd x hx (hcd (hbc hx))
    subst this
    rwa [Finset.Subset.antisymm hbc hcd]
  exact Finset.Subset.antisymm (sub hP h1 h2) (sub hQ h2 h1)

/-- The groups do not depend on the order of the factors, up to their own order. -/
theorem GroupsOk.perm {U : Finset ℕ} {fs fs' : List (Factor F)} {g g' : Groups F} (hp : fs.Perm fs') (h : GroupsOk U fs g)
    (h' : GroupsOk U fs' g') : g.Perm g' := by
  have key : ∀ {fs fs' : List (Factor F)} {g g' : Groups F}, fs.Perm fs' → GroupsOk U fs g → GroupsOk U fs' g' →
      ∀ e ∈ g, e ∈ g' := by
    intro fs fs' g g' hp h h' e he
    have hk := partition_antisymm h.partition h'.partition (h.finer hp h') (h'.finer hp.symm h)
    have : e.1 ∈ g'.map Prod.fst := by
      by_cases h0 : e.1 = ∅
      · rw [h0]; exact h'.empty
      · have : e.1 ∈ (g.map Prod.fst).toFinset.erase ∅ := by
          rw [Finset.mem_erase, List.mem_toFinset]
          exact ⟨h0, List.mem_map_of_mem he⟩
        rw [hk, Finset.mem_erase, List.mem_toFinset] at this
        exact this.2
    obtain ⟨e', he', hee⟩ := List.mem_map.1 this
    have : e' = e := by
      refine Prod.ext hee ?_
      rw [h'.val he', h.val he, hee, Multiset.coe_eq_coe.2 hp]
    exact this ▸ he'
  refine (List.perm_ext_iff_of_nodup h.nodup.of_map h'.nodup.of_map).2 fun e => ⟨key hp h h' e, key hp.symm h' h e⟩

theorem dictGet_ok {g : Groups F} (hn : (g.map Prod.fst).Nodup) {e : Finset ℕ × Product F} (he : e ∈ g) :
    dictGet e.1 g = .ok e.2 := by
  rw [dictGet]
  cases hf : g.find? fun e' => e'.1 = e.1 with
  | none =>
    rw [List.find?_eq_none] at hf
    exact absurd (hf e he) (by simp)
  | some e' =>
    have h1 := List.mem_of_find?_eq_some hf
    have h2 : e'.1 = e.1 := by simpa using List.find?_some hf
    have : e' = e := by
      have hinj := List.inj_on_of_nodup_map hn h1 he h2
      exact hinj
    rw [this]

/-- The keys are the singletons and the empty set exactly if no two directions were joined. -/
theorem GroupsOk.length {dirs : List ℕ} (hd : dirs.Nodup) {fs : List (Factor F)} {g : Groups F} (h : GroupsOk dirs.toFinset fs g) :
    g.length = dirs.length + 1 ↔ ∀ d ∈ dirs, {d} ∈ g.map Prod.fst := by
  have hcard : g.length = ((g.map Prod.fst).toFinset.erase ∅).card + 1 := by
    rw [Finset.card_erase_of_mem (List.mem_toFinset.2 h.empty), List.toFinset_card_of_nodup h.nodup, List.length_map]
    have : 0 < g.length := by
      obtain ⟨e, he, _⟩ := List.mem_map.1 h.empty
      exact List.length_pos_of_mem he
    omega
  set P := (g.map Prod.fst).toFinset.erase ∅ with hPdef
  have hP := h.partition
  rw [← hPdef] at hP
  -- the block of a direction
  have hblock : ∀ d ∈ dirs, ∃ b ∈ P, d ∈ b := fun d hd' => (hP.cover d).1 (by simpa using hd')
  have hsing : ∀ d, ({d} ∈ g.map Prod.fst) ↔ {d} ∈ P := by
    intro d
    rw [hPdef, Finset.mem_erase, List.mem_toFinset]
    exact ⟨fun h => ⟨Finset.singleton_ne_empty d, h⟩, And.right⟩
  constructor
  · intro hlen
    have hPc : P.card = dirs.toFinset.card := by
      rw [List.toFinset_card_of_nodup hd]; omega
    choose! blk hb1 hb2 using hblock
    -- `blk` is onto, hence one to one
    have hsurj : dirs.toFinset.image blk = P := by
      ext b
      rw [Finset.mem_image]
      constructor
      · rintro ⟨d, hd', rfl⟩
        exact hb1 d (by simpa using hd')
      · intro hb
        obtain ⟨x, hx⟩ := hP.nonempty b hb
        have hxd : x ∈ dirs := by simpa using (hP.cover x).2 ⟨b, hb, hx⟩
        exact ⟨x, by simpa using hxd, hP.disjoint _ (hb1 x hxd) b hb x (hb2 x hxd) hx⟩
    have hinj : Set.InjOn blk dirs.toFinset := by
      apply Finset.card_image_iff.1
      rw [hsurj, hPc]
    intro d hd'
    rw [hsing]
    have : blk d = {d} := by
      ext x
      rw [Finset.mem_singleton]
      constructor
      · intro hx
        have hxd : x ∈ dirs := by simpa using (hP.cover x).2 ⟨blk d, hb1 d hd', hx⟩
        have : blk x = blk d := hP.disjoint _ (hb1 x hxd) _ (hb1 d hd') x (hb2 x hxd) hx
        exact hinj (by simpa using hxd) (by simpa using hd') this
      · rintro rfl
        exact hb2 x hd'
    exact this ▸ hb1 d hd'
  · intro hs
    have : P = dirs.toFinset.image fun d => ({d} : Finset ℕ) := by
      ext b
      rw [Finset.mem_image]
      constructor
      · intro hb
        obtain ⟨x, hx⟩ := hP.nonempty b hb
        have hxd : x ∈ dirs := by simpa using (hP.cover x).2 ⟨b, hb, hx⟩
        exact ⟨x, by simpa using hxd,
          hP.disjoint {x} ((hsing x).1 (hs x hxd)) b hb x (Finset.mem_singleton_self x) hx⟩
      · rintro ⟨d, hd', rfl⟩
        exact (hsing d).1 (hs d (by simpa using hd'))
    rw [hcard, this, Finset.card_image_of_injective _ Finset.singleton_injective, List.toFinset_card_of_nodup hd]

/-- `v` lies within `dirs` and is not the group of the constants. -/
def insideB (dirs : List ℕ) (e : Finset ℕ × Product F) : Bool := decide ((∀ x ∈ e.1, x ∈ dirs) ∧ e.1 ≠ ∅)

theorem projectLoop_throws {dirs : List ℕ} : ∀ {g : Groups F} {r : Product F},
    (∃ e ∈ g, insideB dirs e = false ∧ dirs ≠ [] ∧ ∀ x ∈ dirs, x ∈ e.1) → projectLoop dirs g r = .throws
  | [], r, h => by simp at h
  | e :: es, r, h => by
    rw [projectLoop]
    split
    · rename_i hc
      refine projectLoop_throws ?_
      obtain ⟨e', he', h1, h2⟩ := h
      rcases List.mem_cons.1 he' with rfl | he'
      · rw [insideB, decide_eq_false_iff_not] at h1
        exact absurd hc h1
      · exact ⟨e', he', h1, h2⟩
    · split
      · rfl
      · rename_i hc hd
        refine projectLoop_throws ?_
        obtain ⟨e', he', h1, h2⟩ := h
        rcases List.mem_cons.1 he' with rfl | he'
        · exact absurd h2 hd
        · exact ⟨e', he', h1, h2⟩

theorem projectLoop_ok {dirs : List ℕ} : ∀ {g : Groups F} {r : Product F},
    (∀ e ∈ g, insideB dirs e = false → ¬ (dirs ≠ [] ∧ ∀ x ∈ dirs, x ∈ e.1)) →
    projectLoop dirs g r = .ok (r + ((g.filter (insideB dirs)).map Prod.snd).sum)
  | [], r, h => by simp [projectLoop]
  | e :: es, r, h => by
    rw [projectLoop]
    split
    · rename_i hc
      rw [projectLoop_ok (fun e' he' => h e' (List.mem_cons_of_mem _ he')), List.filter_cons,
        if_pos (by simpa [insideB] using hc)]
      simp [add_assoc]
    · rename_i hc
      have hb : insideB dirs e = false := by simpa [insideB] using hc
      rw [if_neg (h e List.mem_cons_self hb), projectLoop_ok (fun e' he' => h e' (List.mem_cons_of_mem _ he')),
        List.filter_cons, if_neg (by simp [hb])]

theorem fn_project_eq {f : Fn F} (h : FnOk f) {args : List (Factor F)} (ht : f.terms = [args]) {d0 : ℕ} {ds : List ℕ}
    (hd : f.dirs = d0 :: ds) (dirs : List ℕ) :
    fn_project f dirs = (do
      let r ← projectLoop dirs (splitTerm f.dirs args)
        (if d0 ∈ dirs then Multiset.filter (fun a => a.1 = ∅) (args : Product F) else 0)
      mkFunction r dirs) := by
  have hg := splitTerm_ok h.nodup (h.vars args (by simp [ht]))
  rw [fn_project, split_ok h, ht]
  simp only [List.map_cons, List.map_nil, Out.ok_bind]
  rw [hd]
  dsimp only
  rw [asFunctions_vals, ← hd]
  by_cases hc : d0 ∈ dirs
  · obtain ⟨e, he, hee⟩ := List.mem_map.1 hg.empty
    rw [if_pos hc, if_pos hc, ← hee, dictGet_ok hg.nodup he, Out.ok_bind, hg.const e he hee, hee]
  · rw [if_neg hc, if_neg hc]

/-- If no factor couples `dirs` to other variables, each group lies in `dirs` or does not meet it. -/
theorem inside_or_apart {U : Finset ℕ} {fs : List (Factor F)} {g : Groups F} (h : GroupsOk U fs g) {dirs : List ℕ}
    (hfs : ∀ f ∈ fs, f.1 ⊆ U) (hc : ¬ Couples fs dirs) {e : Finset ℕ × Product F} (he : e ∈ g) :
    (∀ x ∈ e.1, x ∈ dirs) ∨ ∀ x ∈ e.1, x ∉ dirs := by
  by_cases h0 : e.1 = ∅
  · left; intro x hx; rw [h0] at hx; exact absurd hx (Finset.notMem_empty x)
  let A := U.filter (· ∈ dirs)
  let B := U.filter (· ∉ dirs)
  have hT : IsPartition U (({A, B} : Finset (Finset ℕ)).erase ∅) := by
    refine ⟨?_, ?_, ?_⟩
    · intro b hb
      exact Finset.nonempty_iff_ne_empty.2 (Finset.mem_erase.1 hb).1
    · intro b hb c hc x hxb hxc
      have hb' := (Finset.mem_erase.1 hb).2
      have hc' := (Finset.mem_erase.1 hc).2
      rw [Finset.mem_insert, Finset.mem_singleton] at hb' hc'
      rcases hb' with rfl | rfl <;> rcases hc' with rfl | rfl
      · rfl
      · exact absurd (Finset.mem_filter.1 hxb).2 (Finset.mem_filter.1 hxc).2
      · exact absurd (Finset.mem_filter.1 hxc).2 (Finset.mem_filter.1 hxb).2
      · rfl
    · intro x
      constructor
      · intro hx
        by_cases hxd : x ∈ dirs
        · have : x ∈ A := Finset.mem_filter.2 ⟨hx, hxd⟩
          exact ⟨A, Finset.mem_erase.2 ⟨fun h => Finset.notMem_empty x (h ▸ this), by simp⟩, this⟩
        · have : x ∈ B := Finset.mem_filter.2 ⟨hx, hxd⟩
          exact ⟨B, Finset.mem_erase.2 ⟨fun h => Finset.notMem_empty x (h ▸ this), by simp⟩, this⟩
      · rintro ⟨b, hb, hx⟩
        have hb' := (Finset.mem_erase.1 hb).2
        rw [Finset.mem_insert, Finset.mem_singleton] at hb'
        rcases hb' with rfl | rfl
        · exact (Finset.mem_filter.1 hx).1
        · exact (Finset.mem_filter.1 hx).1
  obtain ⟨b, hb, heb⟩ := h.least _ hT (by
    intro f hf hne
    obtain ⟨x, hx⟩ := Finset.nonempty_iff_ne_empty.2 hne
    by_cases hxd : x ∈ dirs
    · have hsub : f.1 ⊆ A := fun y hy => Finset.mem_filter.2 ⟨hfs f hf hy, by
        by_contra hyd
        exact hc ⟨f, hf, ⟨x, hx, hxd⟩, y, hy, hyd⟩⟩
      exact ⟨A, Finset.mem_erase.2 ⟨fun h => Finset.notMem_empty x (h ▸ hsub hx), by simp⟩, hsub⟩
    · have hsub : f.1 ⊆ B := fun y hy => Finset.mem_filter.2 ⟨hfs f hf hy, by
        intro hyd
        exact hc ⟨f, hf, ⟨y, hy, hyd⟩, x, hx, hxd⟩⟩
      exact ⟨B, Finset.mem_erase.2 ⟨fun h => Finset.notMem_empty x (h ▸ hsub hx), by simp⟩, hsub⟩) e.1 (by
    rw [Finset.mem_erase, List.mem_toFinset]
    exact ⟨h0, List.mem_map_of_mem he⟩)
  have hb' := (Finset.mem_erase.1 hb).2
  rw [Finset.mem_insert, Finset.mem_singleton] at hb'
  rcases hb' with rfl | rfl
  · exact Or.inl fun x hx => (Finset.mem_filter.1 (heb hx)).2
  · exact Or.inr fun x hx => (Finset.mem_filter.1 (heb hx)).2

theorem fn_project_ok {f : Fn F} (h : FnOk f) {args : List (Factor F)} (ht : f.terms = [args]) {d0 : ℕ} {ds : List ℕ}
    (hd : f.dirs = d0 :: ds) {dirs : List ℕ} (hs : dirs.Pairwise (· ≤ ·)) (hc : ¬ Couples args dirs) :
    fn_project f dirs = .ok (dirs, partOn args d0 dirs) := by
  classical
  have hv := h.vars args (by simp [ht])
  have hg := splitTerm_ok h.nodup hv
  rw [fn_project_eq h ht hd, projectLoop_ok]
  · have hsum := hg.sum_part (insideB dirs) (fun a => ∃ x ∈ a.1, x ∈ dirs) (by
      intro a ha
      constructor
      · rintro ⟨x, hx, hxd⟩
        obtain ⟨e, he, hs⟩ := hg.inside a ha
        have h1 := (inside_or_apart hg (fun f hf x hx => by simpa using hv f hf x hx) hc he).resolve_right
          (fun h' => h' x (hs hx) hxd)
        have hne : e.1 ≠ ∅ := fun h0 => Finset.notMem_empty x (h0 ▸ hs hx)
        have hane : a.1 ≠ ∅ := fun h0 => Finset.notMem_empty x (h0 ▸ hx)
        exact ⟨e, he, by simp [insideB, hne]; exact h1, by unfold groupPred; rw [if_neg hne]; exact ⟨hane, hs⟩⟩
      · rintro ⟨e, he, h1, h2⟩
        simp only [insideB, decide_eq_true_eq] at h1
        unfold groupPred at h2
        rw [if_neg h1.2] at h2
        obtain ⟨x, hx⟩ := Finset.nonempty_iff_ne_empty.2 h2.1
        exact ⟨x, hx, h1.1 x (h2.2 hx)⟩)
    rw [hsum, Out.ok_bind, mkFunction_ok hs]
    · congr 2
      rw [partOn]
      split
      · rename_i hd0
        rw [add_comm, Multiset.filter_add_filter]
        have : Multiset.filter (fun a : Factor F => (∃ x ∈ a.1, x ∈ dirs) ∧ a.1 = ∅) (args : Product F) = 0 := by
          rw [Multiset.filter_eq_nil]
          rintro a _ ⟨⟨x, hx, _⟩, h0⟩
          exact Finset.notMem_empty x (h0 ▸ hx)
        rw [this, add_zero]
        exact Multiset.filter_congr fun a _ => by simp [hd0]
      · rename_i hd0
        rw [zero_add]
        exact Multiset.filter_congr fun a _ => by simp [hd0]
    · intro a ha x hx
      rw [Multiset.mem_add] at ha
      rcases ha with ha | ha
      · split at ha
        · rw [(Multiset.mem_filter.1 ha).2] at hx
          exact absurd hx (Finset.notMem_empty x)
        · exact absurd ha (Multiset.notMem_zero a)
      · rw [Multiset.mem_filter] at ha
        by_contra hxd
        exact hc ⟨a, by simpa using ha.1, ha.2, x, hx, hxd⟩
  · rintro e he hb ⟨hne, hsub⟩
    rcases inside_or_apart hg (fun f hf x hx => by simpa using hv f hf x hx) hc he with h1 | h1
    · simp only [insideB, decide_eq_false_iff_not, not_and, not_not] at hb
      have h0 := hb h1
      obtain ⟨d, hd'⟩ := List.exists_mem_of_ne_nil dirs hne
      have := hsub d hd'
      rw [h0] at this
      exact Finset.notMem_empty d this
    · obtain ⟨d, hd'⟩ := List.exists_mem_of_ne_nil dirs hne
      exact h1 d (hsub d hd') hd'

/-- No two directions are joined exactly if no factor has two variables. -/
theorem GroupsOk.separable {dirs : List ℕ} (hd : dirs.Nodup) {fs : List (Factor F)} {g : Groups F} (h : GroupsOk dirs.toFinset fs g) :
    g.length = dirs.length + 1 ↔ ∀ f ∈ fs, f.1.card ≤ 1 := by
  rw [h.length hd]
  constructor
  · intro hs f hf
    obtain ⟨e, he, hfe⟩ := h.inside f hf
    by_contra hc
    push Not at hc
    obtain ⟨x, hx⟩ := Finset.card_pos.1 (by omega : 0 < f.1.card)
    have hxd : x ∈ dirs := by
      have : x ∈ dirs.toFinset := (h.partition.cover x).2 ⟨e.1, by
        rw [Finset.mem_erase, List.mem_toFinset]
        exact ⟨fun h0 => Finset.notMem_empty x (h0 ▸ hfe hx), List.mem_map_of_mem he⟩, hfe hx⟩
      simpa using this
    obtain ⟨e', he', hee⟩ := List.mem_map.1 (hs x hxd)
    have := h.disjoint he he' (hfe hx) (by rw [hee]; exact Finset.mem_singleton_self x)
    have := Finset.card_le_card hfe
    simp_all
    omega
  · intro hf d hd'
    have hfin := h.least (dirs.toFinset.image fun d => ({d} : Finset ℕ)) ⟨?_, ?_, ?_⟩ ?_
    · obtain ⟨b, hb, hdb⟩ := (h.partition.cover d).1 (by simpa using hd')
      obtain ⟨c, hc, hbc⟩ := hfin b hb
      rw [Finset.mem_image] at hc
      obtain ⟨d', _, rfl⟩ := hc
      have : d = d' := Finset.mem_singleton.1 (hbc hdb)
      subst this
      have : b = {d} := Finset.Subset.antisymm hbc (by simpa using hdb)
      rw [← this]
      exact List.mem_toFinset.1 (Finset.mem_of_mem_erase hb)
    · intro b hb
      obtain ⟨d, _, rfl⟩ := Finset.mem_image.1 hb
      exact Finset.singleton_nonempty d
    · intro b hb c hc x hxb hxc
      obtain ⟨d, _, rfl⟩ := Finset.mem_image.1 hb
      obtain ⟨d', _, rfl⟩ := Finset.mem_image.1 hc
      rw [← Finset.mem_singleton.1 hxb, ← Finset.mem_singleton.1 hxc]
    · intro x
      constructor
      · intro hx
        exact ⟨{x}, Finset.mem_image.2 ⟨x, hx, rfl⟩, Finset.mem_singleton_self x⟩
      · rintro ⟨b, hb, hx⟩
        obtain ⟨d, hd, rfl⟩ := Finset.mem_image.1 hb
        rwa [Finset.mem_singleton.1 hx]
    · intro f hf' hne
      obtain ⟨x, hx⟩ := Finset.nonempty_iff_ne_empty.2 hne
      obtain ⟨e, he, hfe⟩ := h.inside f hf'
      refine ⟨{x}, Finset.mem_image.2 ⟨x, ?_, rfl⟩, ?_⟩
      · refine (h.partition.cover x).2 ⟨e.1, ?_, hfe hx⟩
        rw [Finset.mem_erase, List.mem_toFinset]
        exact ⟨fun h0 => Finset.notMem_empty x (h0 ▸ hfe hx), List.mem_map_of_mem he⟩
      · intro y hy
        exact Finset.mem_singleton.2 (Finset.card_le_one.1 (hf f hf') y hy x hx)

end Hermipy
