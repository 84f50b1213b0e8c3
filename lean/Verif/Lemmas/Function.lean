import Verif.Model.Function
import Verif.Spec.Partition
import Verif.Lemmas.FinestCommon
import Verif.Lemmas.Converters
import Mathlib.Algebra.BigOperators.Group.Multiset.Basic

/-! # `Function.split` -/

namespace Hermipy

open Spec

variable {F : Type}

theorem dictSet_new {k : Finset ℕ} {v : Product F} {g : Groups F} (h : k ∉ g.map Prod.fst) : dictSet k v g = g ++ [(k, v)] := by
  induction g with
  | nil => rfl
  | cons e es ih =>
    simp only [List.map_cons, List.mem_cons, not_or] at h
    rw [dictSet, if_neg (fun he => h.1 he.symm), ih h.2, List.cons_append]

theorem initGroups_eq {dirs : List ℕ} (hd : dirs.Nodup) :
    (initGroups dirs : Groups F) = dirs.map (fun d => ({d}, 0)) ++ [(∅, 0)] := by
  have key : ∀ (l : List ℕ) (g : Groups F), l.Nodup → (∀ d ∈ l, ({d} : Finset ℕ) ∉ g.map Prod.fst) →
      l.foldl (fun g d => dictSet {d} 0 g) g = g ++ l.map (fun d => ({d}, 0)) := by
    intro l
    induction l with
    | nil => intro g _ _; simp
    | cons d ds ih =>
      intro g hn hm
      rw [List.nodup_cons] at hn
      rw [List.foldl_cons, dictSet_new (hm d List.mem_cons_self), ih _ hn.2]
      · simp
      · intro d' hd' hmem
        rw [List.map_append, List.mem_append] at hmem
        rcases hmem with h | h
        · exact hm d' (List.mem_cons_of_mem _ hd') h
        · simp only [List.map_cons, List.map_nil, List.mem_singleton, Finset.singleton_inj] at h
          subst h
          exact hn.1 hd'
  rw [initGroups, key dirs [] hd (by simp), List.nil_append, dictSet_new]
  simp

/-- The invariant of the dictionary: `fs` are the factors treated so far. -/
structure GroupsOk (U : Finset ℕ) (fs : List (Factor F)) (g : Groups F) : Prop where
  nodup : (g.map Prod.fst).Nodup
  empty : ∅ ∈ g.map Prod.fst
  partition : IsPartition U ((g.map Prod.fst).toFinset.erase ∅)
  value : ∀ e ∈ g, e.1 ≠ ∅ → e.2 = Multiset.filter (fun f => f.1 ≠ ∅ ∧ f.1 ⊆ e.1) (fs : Product F)
  const : ∀ e ∈ g, e.1 = ∅ → e.2 = Multiset.filter (fun f => f.1 = ∅) (fs : Product F)
  inside : ∀ f ∈ fs, ∃ e ∈ g, f.1 ⊆ e.1
  least : ∀ T, IsPartition U T → (∀ f ∈ fs, f.1 ≠ ∅ → ∃ b ∈ T, f.1 ⊆ b) → Finer ((g.map Prod.fst).toFinset.erase ∅) T

theorem GroupsOk.disjoint {U : Finset ℕ} {fs : List (Factor F)} {g : Groups F} (h : GroupsOk U fs g) {e e' : Finset ℕ × Product F}
    (he : e ∈ g) (he' : e' ∈ g) {x : ℕ} (hx : x ∈ e.1) (hx' : x ∈ e'.1) : e.1 = e'.1 := by
  refine h.partition.disjoint e.1 ?_ e'.1 ?_ x hx hx'
  · rw [Finset.mem_erase, List.mem_toFinset]
    exact ⟨fun h0 => Finset.notMem_empty x (h0 ▸ hx), List.mem_map_of_mem he⟩
  · rw [Finset.mem_erase, List.mem_toFinset]
    exact ⟨fun h0 => Finset.notMem_empty x (h0 ▸ hx'), List.mem_map_of_mem he'⟩

theorem groupsOk_init {dirs : List ℕ} (hd : dirs.Nodup) : GroupsOk dirs.toFinset [] (initGroups dirs : Groups F) := by
  rw [initGroups_eq hd]
  have hk : (dirs.map (fun d => (({d}, 0) : Finset ℕ × Product F)) ++ [(∅, 0)]).map Prod.fst = dirs.map (fun d => {d}) ++ [∅] := by
    simp
  have hset : ((dirs.map (fun d => ({d} : Finset ℕ)) ++ [∅]).toFinset.erase ∅) = (dirs.map (fun d => ({d} : Finset ℕ))).toFinset := by
    ext b
    simp only [Finset.mem_erase, List.mem_toFinset, List.mem_append, List.mem_map, List.mem_singleton]
    constructor
    · rintro ⟨h, h' | h'⟩
      · exact h'
      · exact absurd h' h
    · rintro ⟨d, hd, rfl⟩
      exact ⟨Finset.singleton_ne_empty d, Or.inl ⟨d, hd, rfl⟩⟩
  refine ⟨?_, ?_, ?_, ?_, ?_, ?_, ?_⟩
  · rw [hk, List.nodup_append]
    refine ⟨hd.map (fun a b h => Finset.singleton_injective h), List.nodup_singleton _, ?_⟩
    rintro a ha b hb
    rw [List.mem_singleton] at hb
    obtain ⟨d, _, rfl⟩ := List.mem_map.1 ha
    rw [hb]
    exact Finset.singleton_ne_empty d
  · rw [hk]; simp
  · rw [hk, hset]
    refine ⟨?_, ?_, ?_⟩
    · intro b hb
      rw [List.mem_toFinset, List.mem_map] at hb
      obtain ⟨d, _, rfl⟩ := hb
      exact Finset.singleton_nonempty d
    · intro b hb c hc x hxb hxc
      rw [List.mem_toFinset, List.mem_map] at hb hc
      obtain ⟨d, _, rfl⟩ := hb
      obtain ⟨d', _, rfl⟩ := hc
      rw [Finset.mem_singleton] at hxb hxc
      rw [← hxb, ← hxc]
    · intro x
      simp only [List.mem_toFinset, List.mem_map]
      constructor
      · intro hx; exact ⟨{x}, ⟨x, hx, rfl⟩, by simp⟩
      · rintro ⟨b, ⟨d, hd, rfl⟩, hx⟩
        rw [Finset.mem_singleton] at hx
        rwa [hx]
  · intro e he _
    simp only [List.mem_append, List.mem_map, List.mem_singleton] at he
    rcases he with ⟨d, _, rfl⟩ | rfl <;> simp
  · intro e he _
    simp only [List.mem_append, List.mem_map, List.mem_singleton] at he
    rcases he with ⟨d, _, rfl⟩ | rfl <;> simp
  · simp
  · intro T hT _
    rw [hk, hset]
    intro b hb
    rw [List.mem_toFinset, List.mem_map] at hb
    obtain ⟨d, hd, rfl⟩ := hb
    obtain ⟨c, hc, hdc⟩ := (hT.cover d).1 (by simpa using hd)
    exact ⟨c, hc, by simpa using hdc⟩

/-- The union of the keys of a dictionary. -/
def keyUnion : Groups F → Finset ℕ
  | [] => ∅
  | e :: es => e.1 ∪ keyUnion es

theorem mem_keyUnion {g : Groups F} {x : ℕ} : x ∈ keyUnion g ↔ ∃ e ∈ g, x ∈ e.1 := by
  induction g with
  | nil => simp [keyUnion]
  | cons e es ih => simp [keyUnion, ih]

/-- The loop over the keys collects those that meet the key at the start: the others do not meet what is added on the way. -/
theorem mergeLoop_eq (key0 : Finset ℕ) (l : Groups F) (hl : l.Pairwise fun e e' => ∀ x, x ∈ e.1 → x ∉ e'.1) :
    ∀ (key : Finset ℕ) (value : Product F) (hits : List (Finset ℕ)), key0 ⊆ key → (∀ e ∈ l, ∀ x ∈ e.1, x ∈ key → x ∈ key0) →
    ∃ K, l.foldl (fun (st : Finset ℕ × Product F × List (Finset ℕ)) e =>
        if e.1 ∩ st.1 ≠ ∅ then (e.1 ∪ st.1, st.2.1 + e.2, st.2.2 ++ [e.1]) else st) (key, value, hits) =
      (K, value + ((l.filter fun e => e.1 ∩ key0 ≠ ∅).map Prod.snd).sum,
        hits ++ (l.filter fun e => e.1 ∩ key0 ≠ ∅).map Prod.fst) ∧
      ∀ x, x ∈ K ↔ x ∈ key ∨ ∃ e ∈ l.filter (fun e => e.1 ∩ key0 ≠ ∅), x ∈ e.1 := by
  induction l with
  | nil => intro key value hits _ _; exact ⟨key, by simp, by simp⟩
  | cons e es ih =>
    intro key value hits hk hdis
    rw [List.pairwise_cons] at hl
    have hiff : e.1 ∩ key ≠ ∅ ↔ e.1 ∩ key0 ≠ ∅ := by
      rw [inter_ne_empty, inter_ne_empty]
      constructor
      · rintro ⟨x, h1, h2⟩; exact ⟨x, h1, hdis e List.mem_cons_self x h1 h2⟩
      · rintro ⟨x, h1, h2⟩; exact ⟨x, h1, hk h2⟩
    rw [List.foldl_cons]
    by_cases h : e.1 ∩ key0 ≠ ∅
    · obtain ⟨K, h1, h2⟩ := ih hl.2 (e.1 ∪ key) (value + e.2) (hits ++ [e.1]) (hk.trans Finset.subset_union_right) (by
        intro e' he' x hx hxk
        rcases Finset.mem_union.1 hxk with h | h
        · exact absurd hx (hl.1 e' he' x h)
        · exact hdis e' (List.mem_cons_of_mem _ he') x hx h)
      refine ⟨K, ?_, ?_⟩
      · rw [if_pos (hiff.2 h), h1, List.filter_cons, if_pos (by simpa using h)]
        simp [add_assoc]
      · intro x
        rw [h2, List.filter_cons, if_pos (by simpa using h), Finset.mem_union]
        simp only [List.mem_cons, exists_eq_or_imp]
        tauto
    · obtain ⟨K, h1, h2⟩ := ih hl.2 key value hits hk (fun e' he' => hdis e' (List.mem_cons_of_mem _ he'))
      refine ⟨K, ?_, ?_⟩
      · rw [if_neg (fun h' => h (hiff.1 h')), h1, List.filter_cons, if_neg (by simpa using h)]
      · intro x
        rw [h2, List.filter_cons, if_neg (by simpa using h)]

/-- The factors of several groups. -/
theorem sum_filter {β : Type} (es : List β) (q : β → Factor F → Prop) [∀ e, DecidablePred (q e)]
    (r : Factor F → Prop) [DecidablePred r] (m : Product F) (ex : es.Pairwise fun e e' => ∀ f ∈ m, q e f → ¬ q e' f)
    (hr : ∀ f ∈ m, r f ↔ ∃ e ∈ es, q e f) : (es.map fun e => Multiset.filter (q e) m).sum = Multiset.filter r m := by
  classical
  induction es generalizing r with
  | nil =>
    simp only [List.map_nil, List.sum_nil]
    rw [eq_comm, Multiset.filter_eq_nil]
    intro f hf h
    simpa using (hr f hf).1 h
  | cons e es ih =>
    rw [List.pairwise_cons] at ex
    rw [List.map_cons, List.sum_cons, ih (fun f => ∃ e ∈ es, q e f) ex.2 (fun f _ => Iff.rfl)]
    rw [Multiset.filter_add_filter]
    have h1 : Multiset.filter (fun f => q e f ∧ ∃ e ∈ es, q e f) m = 0 := by
      rw [Multiset.filter_eq_nil]
      rintro f hf ⟨h, e', he', h'⟩
      exact ex.1 e' he' f hf h h'
    rw [h1, add_zero]
    refine Multiset.filter_congr fun f hf => ?_
    rw [hr f hf]
    simp

theorem splitStep_ok {U : Finset ℕ} {fs : List (Factor F)} {g : Groups F} {arg : Factor F} (h : GroupsOk U fs g)
    (ha : arg.1 ⊆ U) : GroupsOk U (fs ++ [arg]) (splitStep g arg) := by
  have hco : ((fs ++ [arg] : List (Factor F)) : Product F) = (fs : Product F) + {arg} := by
    rw [← Multiset.coe_add]; rfl
  rw [splitStep]
  split
  · rename_i hmem
    have hk : (g.map fun e => if e.1 = arg.1 then (e.1, e.2 + {arg}) else e).map Prod.fst = g.map Prod.fst := by
      rw [List.map_map]
      refine List.map_congr_left fun e _ => ?_
      simp only [Function.comp]
      split <;> rfl
    refine ⟨?_, ?_, ?_, ?_, ?_, ?_, ?_⟩
    · rw [hk]; exact h.nodup
    · rw [hk]; exact h.empty
    · rw [hk]; exact h.partition
    · intro e he hne
      obtain ⟨e', he', rfl⟩ := List.mem_map.1 he
      rw [hco, Multiset.filter_add, Multiset.filter_singleton]
      by_cases hc : e'.1 = arg.1
      · rw [if_pos hc] at hne ⊢
        dsimp only at hne ⊢
        rw [h.value e' he' hne, if_pos ⟨hc ▸ hne, by rw [hc]⟩]
      · rw [if_neg hc] at hne ⊢
        rw [h.value e' he' hne, if_neg, Multiset.empty_eq_zero, Multiset.add_zero]
        rintro ⟨hx, hsub⟩
        obtain ⟨x, hx⟩ := Finset.nonempty_iff_ne_empty.2 hx
        obtain ⟨e'', he'', hee⟩ := List.mem_map.1 hmem
        exact hc ((h.disjoint he' he'' (hsub hx) (hee ▸ hx)).trans hee)
    · intro e he hem
      obtain ⟨e', he', rfl⟩ := List.mem_map.1 he
      rw [hco, Multiset.filter_add, Multiset.filter_singleton]
      by_cases hc : e'.1 = arg.1
      · rw [if_pos hc] at hem ⊢
        dsimp only at hem ⊢
        rw [h.const e' he' hem, if_pos (hc ▸ hem)]
      · rw [if_neg hc] at hem ⊢
        rw [h.const e' he' hem, if_neg (fun h0 => hc (hem.trans h0.symm)), Multiset.empty_eq_zero, Multiset.add_zero]
    · intro f hf
      have hex : ∃ k ∈ g.map Prod.fst, f.1 ⊆ k := by
        rcases List.mem_append.1 hf with hf | hf
        · obtain ⟨e, he, hs⟩ := h.inside f hf
          exact ⟨e.1, List.mem_map_of_mem he, hs⟩
        · rw [List.mem_singleton] at hf
          subst hf
          exact ⟨_, hmem, Finset.Subset.refl _⟩
      rw [← hk] at hex
      obtain ⟨k, hk1, hk2⟩ := hex
      obtain ⟨e, he, rfl⟩ := List.mem_map.1 hk1
      exact ⟨e, he, hk2⟩
    · intro T hT hf
      rw [hk]
      exact h.least T hT fun f hf' => hf f (List.mem_append_left _ hf')
  · rename_i hmem
    have hne : arg.1 ≠ ∅ := fun h0 => hmem (h0 ▸ h.empty)
    have hpw : g.Pairwise fun e e' => ∀ x, x ∈ e.1 → x ∉ e'.1 := by
      have := List.pairwise_map.1 h.nodup
      refine List.Pairwise.imp_of_mem ?_ this
      intro e e' he he' hne x hx hx'
      exact hne (h.disjoint he he' hx hx')
    obtain ⟨K, hK, hKmem⟩ := mergeLoop_eq arg.1 g hpw arg.1 {arg} [] (Finset.Subset.refl _) (fun _ _ _ _ hx => hx)
    rw [← mergeLoop] at hK
    set hits := g.filter fun e => e.1 ∩ arg.1 ≠ ∅ with hhits
    have hhit : ∀ e, e ∈ hits ↔ e ∈ g ∧ ∃ x, x ∈ e.1 ∧ x ∈ arg.1 := by
      intro e
      rw [hhits, List.mem_filter]
      simp only [decide_eq_true_eq]
      rw [inter_ne_empty]
    -- the union of the hits
    have hKmem' : ∀ x, x ∈ K ↔ ∃ e ∈ hits, x ∈ e.1 := by
      intro x
      rw [hKmem]
      constructor
      · rintro (hx | hx)
        · obtain ⟨b, hb, hxb⟩ := (h.partition.cover x).1 (ha hx)
          rw [Finset.mem_erase, List.mem_toFinset] at hb
          obtain ⟨e, he, rfl⟩ := List.mem_map.1 hb.2
          exact ⟨e, (hhit e).2 ⟨he, x, hxb, hx⟩, hxb⟩
        · exact hx
      · exact Or.inr
    have hargK : arg.1 ⊆ K := fun x hx => (hKmem x).2 (Or.inl hx)
    have hKne : K ≠ ∅ := by
      obtain ⟨x, hx⟩ := Finset.nonempty_iff_ne_empty.2 hne
      exact fun h0 => Finset.notMem_empty x (h0 ▸ hargK hx)
    dsimp only
    rw [hK]
    dsimp only
    rw [List.nil_append]
    set rest := g.filter fun e => e.1 ∉ hits.map Prod.fst with hrest
    have hresti : ∀ e, e ∈ rest ↔ e ∈ g ∧ ¬ ∃ x, x ∈ e.1 ∧ x ∈ arg.1 := by
      intro e
      rw [hrest, List.mem_filter]
      simp only [decide_eq_true_eq]
      refine and_congr_right fun he => not_congr ?_
      constructor
      · intro hm
        obtain ⟨e', he', hee⟩ := List.mem_map.1 hm
        obtain ⟨_, x, hx1, hx2⟩ := (hhit e').1 he'
        exact ⟨x, hee ▸ hx1, hx2⟩
      · intro hx
        exact List.mem_map_of_mem ((hhit e).2 ⟨he, hx⟩)
    have hrestK : ∀ e ∈ rest, ∀ x ∈ e.1, x ∉ K := by
      intro e he x hx hxK
      obtain ⟨e', he', hx'⟩ := (hKmem' x).1 hxK
      obtain ⟨hg', y, hy1, hy2⟩ := (hhit e').1 he'
      obtain ⟨hg, hno⟩ := (hresti e).1 he
      have := h.disjoint hg hg' hx hx'
      exact hno ⟨y, this ▸ hy1, hy2⟩
    have hKnew : K ∉ rest.map Prod.fst := by
      intro hm
      obtain ⟨e, he, hee⟩ := List.mem_map.1 hm
      obtain ⟨x, hx⟩ := Finset.nonempty_iff_ne_empty.2 hKne
      exact hrestK e he x (hee ▸ hx) hx
    rw [dictSet_new hKnew]
    have hkeys : (rest ++ [(K, {arg} + (hits.map Prod.snd).sum)]).map Prod.fst = rest.map Prod.fst ++ [K] := by simp
    have hkset : ((rest.map Prod.fst ++ [K]).toFinset.erase ∅) = insert K ((rest.map Prod.fst).toFinset.erase ∅) := by
      ext b
      simp only [Finset.mem_erase, List.mem_toFinset, List.mem_append, List.mem_singleton, Finset.mem_insert]
      constructor
      · rintro ⟨h1, h2 | h2⟩
        · exact Or.inr ⟨h1, h2⟩
        · exact Or.inl h2
      · rintro (rfl | ⟨h1, h2⟩)
        · exact ⟨hKne, Or.inr rfl⟩
        · exact ⟨h1, Or.inl h2⟩
    have hmemkeys : ∀ e ∈ g, e ∈ rest ∨ e.1 ⊆ K := by
      intro e he
      by_cases hx : ∃ x, x ∈ e.1 ∧ x ∈ arg.1
      · exact Or.inr fun y hy => (hKmem' y).2 ⟨e, (hhit e).2 ⟨he, hx⟩, hy⟩
      · exact Or.inl ((hresti e).2 ⟨he, hx⟩)
    refine ⟨?_, ?_, ?_, ?_, ?_, ?_, ?_⟩
    · rw [hkeys, List.nodup_append]
      refine ⟨?_, List.nodup_singleton _, ?_⟩
      · exact h.nodup.sublist (List.filter_sublist.map _)
      · intro a ha b hb
        rw [List.mem_singleton] at hb
        rintro rfl
        exact hKnew (hb ▸ ha)
    · rw [hkeys]
      refine List.mem_append_left _ ?_
      obtain ⟨e, he, hee⟩ := List.mem_map.1 h.empty
      refine List.mem_map.2 ⟨e, (hresti e).2 ⟨he, ?_⟩, hee⟩
      rintro ⟨x, hx, _⟩
      rw [hee] at hx
      exact Finset.notMem_empty x hx
    · rw [hkeys, hkset]
      refine merge_partition h.partition ?_ ?_ (Finset.nonempty_iff_ne_empty.2 hKne) ?_ ?_
      · refine Finset.erase_subset_erase _ ?_
        intro b hb
        rw [List.mem_toFinset] at hb ⊢
        exact (List.filter_sublist.map _).subset hb
      · intro x hx
        obtain ⟨e, he, hxe⟩ := (hKmem' x).1 hx
        refine (h.partition.cover x).2 ⟨e.1, ?_, hxe⟩
        rw [Finset.mem_erase, List.mem_toFinset]
        exact ⟨fun h0 => Finset.notMem_empty x (h0 ▸ hxe), List.mem_map_of_mem ((hhit e).1 he).1⟩
      · intro b hb
        rw [Finset.mem_erase, List.mem_toFinset] at hb
        obtain ⟨e, he, rfl⟩ := List.mem_map.1 hb.2
        rcases hmemkeys e he with h' | h'
        · left
          rw [Finset.mem_erase, List.mem_toFinset]
          exact ⟨hb.1, List.mem_map_of_mem h'⟩
        · exact Or.inr h'
      · intro b hb x hx
        rw [Finset.mem_erase, List.mem_toFinset] at hb
        obtain ⟨e, he, rfl⟩ := List.mem_map.1 hb.2
        exact hrestK e he x hx
    · intro e he hne'
      rw [hco, Multiset.filter_add, Multiset.filter_singleton]
      rcases List.mem_append.1 he with he | he
      · rw [h.value e ((hresti e).1 he).1 hne', if_neg, Multiset.empty_eq_zero, Multiset.add_zero]
        rintro ⟨hx, hsub⟩
        obtain ⟨x, hx⟩ := Finset.nonempty_iff_ne_empty.2 hx
        exact ((hresti e).1 he).2 ⟨x, hsub hx, hx⟩
      · rw [List.mem_singleton] at he
        subst he
        dsimp only
        rw [if_pos ⟨hne, hargK⟩, add_comm]
        congr 1
        have hv : hits.map Prod.snd = hits.map fun e => Multiset.filter (fun f => f.1 ≠ ∅ ∧ f.1 ⊆ e.1) (fs : Product F) := by
          refine List.map_congr_left fun e he => ?_
          obtain ⟨hg, x, hx, _⟩ := (hhit e).1 he
          exact h.value e hg fun h0 => Finset.notMem_empty x (h0 ▸ hx)
        rw [hv]
        refine sum_filter hits (fun e f => f.1 ≠ ∅ ∧ f.1 ⊆ e.1) _ _ ?_ ?_
        · refine List.Pairwise.imp ?_ (hpw.sublist List.filter_sublist)
          rintro e e' hd f _ ⟨hf, hfe⟩ ⟨_, hfe'⟩
          obtain ⟨x, hx⟩ := Finset.nonempty_iff_ne_empty.2 hf
          exact hd x (hfe hx) (hfe' hx)
        · intro f hf
          constructor
          · rintro ⟨hf0, hfK⟩
            obtain ⟨x, hx⟩ := Finset.nonempty_iff_ne_empty.2 hf0
            obtain ⟨e, he, hfe⟩ := h.inside f (by simpa using hf)
            obtain ⟨e', he', hxe'⟩ := (hKmem' x).1 (hfK hx)
            have := h.disjoint he ((hhit e').1 he').1 (hfe hx) hxe'
            exact ⟨e', he', hf0, this ▸ hfe⟩
          · rintro ⟨e, he, hf0, hfe⟩
            exact ⟨hf0, fun y hy => (hKmem' y).2 ⟨e, he, hfe hy⟩⟩
    · intro e he hem
      rw [hco, Multiset.filter_add, Multiset.filter_singleton, if_neg hne, Multiset.empty_eq_zero, Multiset.add_zero]
      rcases List.mem_append.1 he with he | he
      · exact h.const e ((hresti e).1 he).1 hem
      · rw [List.mem_singleton] at he
        subst he
        exact absurd hem hKne
    · intro f hf
      rcases List.mem_append.1 hf with hf | hf
      · obtain ⟨e, he, hs⟩ := h.inside f hf
        rcases hmemkeys e he with h' | h'
        · exact ⟨e, List.mem_append_left _ h', hs⟩
        · exact ⟨_, List.mem_append_right _ (List.mem_singleton_self _), hs.trans h'⟩
      · rw [List.mem_singleton] at hf
        subst hf
        exact ⟨_, List.mem_append_right _ (List.mem_singleton_self _), hargK⟩
    · intro T hT hf
      have hl := h.least T hT fun f hf' => hf f (List.mem_append_left _ hf')
      rw [hkeys, hkset]
      intro b hb
      rcases Finset.mem_insert.1 hb with rfl | hb
      · obtain ⟨c, hc, hac⟩ := hf arg (by simp) hne
        refine ⟨c, hc, fun y hy => ?_⟩
        obtain ⟨e, he, hye⟩ := (hKmem' y).1 hy
        obtain ⟨hg, x, hx1, hx2⟩ := (hhit e).1 he
        obtain ⟨d, hd, hed⟩ := hl e.1 (by
          rw [Finset.mem_erase, List.mem_toFinset]
          exact ⟨fun h0 => Finset.notMem_empty x (h0 ▸ hx1), List.mem_map_of_mem hg⟩)
        have := hT.disjoint c hc d hd x (hac hx2) (hed hx1)
        exact this ▸ hed hye
      · refine hl b (Finset.erase_subset_erase _ ?_ hb)
        intro b hb
        rw [List.mem_toFinset] at hb ⊢
        exact (List.filter_sublist.map _).subset hb

theorem splitTerm_ok {dirs : List ℕ} (hd : dirs.Nodup) {args : List (Factor F)} (ha : ∀ f ∈ args, ∀ x ∈ f.1, x ∈ dirs) :
    GroupsOk dirs.toFinset args (splitTerm dirs args) := by
  have key : ∀ (l : List (Factor F)) (fs : List (Factor F)) (g : Groups F), GroupsOk dirs.toFinset fs g →
      (∀ f ∈ l, ∀ x ∈ f.1, x ∈ dirs) → GroupsOk dirs.toFinset (fs ++ l) (l.foldl splitStep g) := by
    intro l
    induction l with
    | nil => intro fs g h _; simpa using h
    | cons f l ih =>
      intro fs g h hl
      have := ih (fs ++ [f]) (splitStep g f)
        (splitStep_ok h fun x hx => by simpa using hl f List.mem_cons_self x hx)
        (fun f' hf' => hl f' (List.mem_cons_of_mem _ hf'))
      simpa using this
  simpa [splitTerm] using key args [] _ (groupsOk_init hd) ha

end Hermipy
