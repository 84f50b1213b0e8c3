import Verif.Lemmas.QuadProject
import Verif.Lemmas.FinestCommon

/-! # The decorator `tensorize_at` -/

namespace Hermipy
open Spec
variable {F : Type}

/-- `bs` is the finest division of the directions `U` such that each factor of `args` and of `p` depends on the directions of one block only. -/
structure BlocksOk (U : Finset ℕ) (args p : Product F) (bs : List (Finset ℕ)) : Prop where
  nodup : bs.Nodup
  partition : IsPartition U bs.toFinset
  inside : ∀ a ∈ args, a.1 ≠ ∅ → ∃ b ∈ bs, a.1 ⊆ b
  fac : ∀ a ∈ p, a.1 ≠ ∅ → ∃ b ∈ bs, a.1 ⊆ b
  least : ∀ T, IsPartition U T → (∀ a ∈ args, a.1 ≠ ∅ → ∃ b ∈ T, a.1 ⊆ b) → (∀ a ∈ p, a.1 ≠ ∅ → ∃ b ∈ T, a.1 ⊆ b) → Finer bs.toFinset T

/-- The factors of `args` which depend on the directions `s`. -/
def blockPart (args : Product F) (s : Finset ℕ) : Product F := Multiset.filter (fun f => f.1 ≠ ∅ ∧ f.1 ⊆ s) args

/-- The constant factors of `args`. -/
def constPart (args : Product F) : Product F := Multiset.filter (fun f => f.1 = ∅) args

theorem BlocksOk.not_couples {U : Finset ℕ} {args p : Product F} {bs : List (Finset ℕ)} (h : BlocksOk U args p bs) {s : Finset ℕ}
    (hs : s ∈ bs) : ¬ Couples p.toList (s.sort (· ≤ ·)) := by
  rintro ⟨f, hf, ⟨x, hx, hxs⟩, y, hy, hys⟩
  rw [Finset.mem_sort] at hxs hys
  obtain ⟨b, hb, hfb⟩ := h.fac f (Multiset.mem_toList.1 hf) (fun h0 => by rw [h0] at hx; simp at hx)
  have := h.partition.disjoint b (List.mem_toFinset.2 hb) s (List.mem_toFinset.2 hs) x (hfb hx) hxs
  exact hys (this ▸ hfb hy)

theorem newAdd_fold (bs : List (Finset ℕ)) : ∀ (gs pre : List (Finset ℕ × (List ℕ × Product F))),
    (∀ e ∈ gs, ∀ f ∈ e.2.2, f.1 ⊆ e.1) → (∀ e ∈ pre, ∀ f ∈ e.2.2, f.1 ⊆ e.1) →
    gs.foldlM newAddStep (bs.map fun s => (s, (cond (pre.any fun e => e.1 ⊆ s) (s.sort (· ≤ ·)) [],
      ((pre.filter fun e => e.1 ⊆ s).map fun e => e.2.2).sum))) =
    .ok (bs.map fun s => (s, (cond ((pre ++ gs).any fun e => e.1 ⊆ s) (s.sort (· ≤ ·)) [],
      (((pre ++ gs).filter fun e => e.1 ⊆ s).map fun e => e.2.2).sum))) := by
  intro gs
  induction gs with
  | nil => intro pre _ _; simp [pure]
  | cons e gs ih =>
    intro pre h1 h2
    rw [List.foldlM_cons]
    have e1 : newAddStep (bs.map fun s => (s, (cond (pre.any fun e => e.1 ⊆ s) (s.sort (· ≤ ·)) [],
      ((pre.filter fun e => e.1 ⊆ s).map fun e => e.2.2).sum))) e =
      .ok (bs.map fun s => (s, (cond ((pre ++ [e]).any fun e => e.1 ⊆ s) (s.sort (· ≤ ·)) [],
        (((pre ++ [e]).filter fun e => e.1 ⊆ s).map fun e => e.2.2).sum))) := by
      rw [newAddStep, List.mapM_map]
      refine mapM_ok fun s hs => ?_
      simp only [Function.comp_apply]
      by_cases hc : e.1 ⊆ s
      · rw [if_pos hc, mkFunction_ok ((sorted_sort s).imp Nat.le_of_lt), Out.ok_bind]
        · simp [hc, List.filter_append]
        · intro f hf x hx
          rw [Finset.mem_sort]
          rcases Multiset.mem_add.1 hf with hf | hf
          · obtain ⟨y, hy, hfy⟩ : ∃ y ∈ (pre.filter fun e => e.1 ⊆ s).map fun e => e.2.2, f ∈ y := by
              revert hf
              generalize (pre.filter fun e => e.1 ⊆ s).map (fun e => e.2.2) = l
              induction l with
              | nil => simp
              | cons a l ihl =>
                intro hf
                rw [List.sum_cons, Multiset.mem_add] at hf
                rcases hf with hf | hf
                · exact ⟨a, by simp, hf⟩
                · obtain ⟨y, hy, h⟩ := ihl hf
                  exact ⟨y, by simp [hy], h⟩
            obtain ⟨e', he', rfl⟩ := List.mem_map.1 hy
            rw [List.mem_filter] at he'
            exact (of_decide_eq_true he'.2) (h2 e' he'.1 f hfy hx)
          · exact hc (h1 e (by simp) f hf hx)
      · rw [if_neg hc]
        simp [hc, List.filter_append]
    rw [e1, Out.ok_bind, ih (pre ++ [e]) (fun e' he' => h1 e' (by simp [he'])) (by
      intro e' he'
      rcases List.mem_append.1 he' with he' | he'
      · exact h2 e' he'
      · rw [List.mem_singleton] at he'
        subst he'
        exact h1 e' (by simp))]
    simp only [List.append_assoc, List.singleton_append]

/-- The groups of a term, put together in the blocks of a coarser division. -/
theorem newAdd_ok {U : Finset ℕ} {args : List (Factor F)} {g : Groups F} (hg : GroupsOk U args g) {bs : List (Finset ℕ)}
    (hpart : IsPartition U bs.toFinset) (hfin : Finer ((g.map Prod.fst).toFinset.erase ∅) bs.toFinset) :
    ((asFunctions g).filter fun e => e.1 ≠ ∅).foldlM newAddStep (bs.map fun s => (s, ([], 0))) =
      .ok (bs.map fun s => (s, (s.sort (· ≤ ·), blockPart (args : Product F) s))) := by
  have key := newAdd_fold bs ((asFunctions g).filter fun e => e.1 ≠ ∅) [] (by
    intro e he f hf
    rw [List.mem_filter, asFunctions, List.mem_map] at he
    obtain ⟨⟨e', he', rfl⟩, -⟩ := he
    exact hg.own he' f hf) (by simp)
  simp only [List.any_nil, cond_false, List.filter_nil, List.map_nil, List.sum_nil, List.nil_append] at key
  rw [key]
  congr 1
  apply List.map_congr_left
  intro s hs
  have hsf := List.mem_toFinset.2 hs
  have hin : ∀ e ∈ g, e.1 ≠ ∅ → ∀ x ∈ e.1, x ∈ s → e.1 ⊆ s := by
    intro e he hne x hx hxs
    obtain ⟨c, hc, hec⟩ := hfin e.1 (by rw [Finset.mem_erase, List.mem_toFinset]; exact ⟨hne, List.mem_map_of_mem he⟩)
    have := hpart.disjoint c hc s hsf x (hec hx) hxs
    exact this ▸ hec
  have hex : ((asFunctions g).filter fun e => e.1 ≠ ∅).any (fun e => e.1 ⊆ s) = true := by
    rw [List.any_eq_true]
    obtain ⟨x, hx⟩ := hpart.nonempty s hsf
    obtain ⟨b, hb, hxb⟩ := (hg.partition.cover x).1 ((hpart.cover x).2 ⟨s, hsf, hx⟩)
    rw [Finset.mem_erase, List.mem_toFinset, List.mem_map] at hb
    obtain ⟨hbne, e, he, rfl⟩ := hb
    refine ⟨(e.1, (e.1.sort (· ≤ ·), e.2)), ?_, decide_eq_true (hin e he hbne x hxb hx)⟩
    rw [List.mem_filter, asFunctions]
    exact ⟨List.mem_map.2 ⟨e, he, rfl⟩, by simpa using hbne⟩
  rw [hex, cond_true]
  congr 2
  have := hg.sum_part (fun e => decide (e.1 ≠ ∅ ∧ e.1 ⊆ s)) (fun f => f.1 ≠ ∅ ∧ f.1 ⊆ s) (by
    intro f hf
    constructor
    · rintro ⟨hne, hfs⟩
      obtain ⟨e, he, hp⟩ := hg.exhaustive hf
      unfold groupPred at hp
      split at hp
      · exact absurd hp hne
      · rename_i hene
        refine ⟨e, he, ?_, ?_⟩
        · obtain ⟨x, hx⟩ := Finset.nonempty_iff_ne_empty.2 hne
          exact decide_eq_true ⟨hene, hin e he hene x (hp.2 hx) (hfs hx)⟩
        · unfold groupPred
          rw [if_neg hene]
          exact hp
    · rintro ⟨e, he, hc, hp⟩
      have hc := of_decide_eq_true hc
      unfold groupPred at hp
      rw [if_neg hc.1] at hp
      exact ⟨hp.1, hp.2.trans hc.2⟩)
  rw [blockPart, ← this]
  congr 1
  rw [asFunctions, List.filter_map, List.filter_map, List.filter_filter, List.map_map]
  simp only [Function.comp_def, Bool.decide_and]
  congr 1
  apply List.filter_congr
  intro e _
  exact Bool.and_comm _ _

/-- What `tensorize_at` computes: for each term, the results for the blocks of a division of the directions, put together and multiplied
by the constant of the term; then the sum of these. -/
theorem tensorize_at_ok [Interp F] {R : Type} {order : ℕ → Finset (Finset ℕ) → List (Finset ℕ)} (ho : OrderOk order) (k : ℕ)
    {func : HQuad F → SFn F → Out R} {tens : List (Finset ℕ × R) → Out R} {scale : R → ℝ → Out R} {plus : R → R → Out R} {q : HQuad F}
    (hq : QuadOk q) {p : Product F} (hp : q.factor.terms = {p}) {f : SFn F} (hf : SFnOk f) (hd : f.dirs = q.position.dirs)
    {v : Product F → Finset ℕ → R} {r : Product F → R}
    (hv : ∀ args ∈ f.terms, ∀ bs, BlocksOk q.position.dirs.toFinset args p bs → ∀ s ∈ bs,
      func (subQuad q p (s.sort (· ≤ ·))) ⟨s.sort (· ≤ ·), {blockPart args s}⟩ = .ok (v args s))
    (hr : ∀ args ∈ f.terms, ∀ bs, BlocksOk q.position.dirs.toFinset args p bs → ∃ t, tens (bs.map fun s => (s, v args s)) = .ok t ∧
      scale t (productValue (constPart args) fun _ => 0) = .ok (r args)) :
    ∃ L : List (Product F), (L : Multiset (Product F)) = f.terms ∧ tensorize_at order k func tens scale plus q f =
      match L.map r with
      | [] => .throws
      | r :: rs => rs.foldlM plus r := by
  have hdn : f.dirs.Nodup := hf.sorted.imp (ne_of_lt ·)
  refine ⟨f.toFn.terms.map (fun l : List (Factor F) => (l : Product F)), ?_, ?_⟩
  · simp only [SFn.toFn]
    have := Multiset.map_coe (fun l : List (Factor F) => (l : Product F)) (f.terms.map fun p => p.toList).toList
    rw [Multiset.coe_toList, Multiset.map_map] at this
    rw [← this]
    simp [Function.comp_def]
  have hmem : ∀ args ∈ f.toFn.terms, (args : Product F) ∈ f.terms := by
    intro args ha
    simp only [SFn.toFn, Multiset.mem_toList, Multiset.mem_map] at ha
    obtain ⟨t, ht, rfl⟩ := ha
    simpa using ht
  have hpn : ∀ a ∈ p, ∀ x ∈ a.1, x ∈ q.position.dirs := by
    intro a ha x hx
    rw [← hq.factorDirs]
    exact hq.factor.vars p (by simp [hp]) a ha x hx
  have hgq : GroupsOk q.position.dirs.toFinset p.toList (splitTerm q.position.dirs p.toList) :=
    splitTerm_ok (hd ▸ hdn) fun a ha x hx => hpn a (Multiset.mem_toList.1 ha) x hx
  rw [tensorize_at, if_neg (by simpa using hq.diag.is_diag), split_ok hf.fnOk, Out.ok_bind]
  simp only [List.mapM_map]
  rw [mapM_ok (g := fun args : List (Factor F) => r (args : Product F))]
  · rw [Out.ok_bind, List.map_map]
    rfl
  intro args hargs
  have hg : GroupsOk q.position.dirs.toFinset args (splitTerm f.toFn.dirs args) := by
    have := splitTerm_ok hdn (hf.fnOk.vars args hargs)
    rw [← hd]
    exact this
  simp only [Function.comp_apply]
  obtain ⟨e0, he0, he0'⟩ := List.mem_map.1 hg.empty
  have hmul : dictGet ∅ ((asFunctions (splitTerm f.toFn.dirs args)).map fun e => (e.1, e.2.2)) = .ok (constPart (args : Product F)) := by
    rw [asFunctions_vals, ← he0', dictGet_ok hg.nodup he0, hg.const e0 he0 he0']
    rfl
  have hk1 : (((asFunctions (splitTerm f.toFn.dirs args)).filter fun e => e.1 ≠ ∅).map Prod.fst).toFinset =
      ((splitTerm f.toFn.dirs args).map Prod.fst).toFinset.erase ∅ := by
    ext b
    simp only [List.mem_toFinset, List.mem_map, List.mem_filter, Finset.mem_erase, asFunctions]
    constructor
    · rintro ⟨e, ⟨⟨e', he', rfl⟩, hne⟩, rfl⟩
      exact ⟨by simpa using hne, e', he', rfl⟩
    · rintro ⟨hne, e', he', rfl⟩
      exact ⟨_, ⟨⟨e', he', rfl⟩, by simpa using hne⟩, rfl⟩
  obtain ⟨Rf, hR, hJ⟩ := finest_common_spec ho _ 0 _ _ rfl hg.partition hgq.partition
  have hofin : (order k Rf).toFinset = Rf := by ext b; rw [List.mem_toFinset]; exact (ho k Rf).2 b
  have hpart : IsPartition q.position.dirs.toFinset (order k Rf).toFinset := by rw [hofin]; exact hJ.partition
  have hblk : BlocksOk q.position.dirs.toFinset (args : Product F) p (order k Rf) := by
    refine ⟨(ho k Rf).1, hpart, ?_, ?_, fun T hT h1 h2 => ?_⟩
    · intro a ha hne
      obtain ⟨e, he, hs⟩ := hg.inside a ha
      obtain ⟨c, hc, hec⟩ := hJ.left e.1 (by
        rw [Finset.mem_erase, List.mem_toFinset]
        exact ⟨fun h0 => hne (Finset.subset_empty.1 (h0 ▸ hs)), List.mem_map_of_mem he⟩)
      exact ⟨c, List.mem_toFinset.1 (hofin.symm ▸ hc), hs.trans hec⟩
    · intro a ha hne
      obtain ⟨e, he, hs⟩ := hgq.inside a (Multiset.mem_toList.2 ha)
      obtain ⟨c, hc, hec⟩ := hJ.right e.1 (by
        rw [Finset.mem_erase, List.mem_toFinset]
        exact ⟨fun h0 => hne (Finset.subset_empty.1 (h0 ▸ hs)), List.mem_map_of_mem he⟩)
      exact ⟨c, List.mem_toFinset.1 (hofin.symm ▸ hc), hs.trans hec⟩
    · rw [hofin]
      exact hJ.least T hT (hg.least T hT h1) (hgq.least T hT fun a ha => h2 a (Multiset.mem_toList.1 ha))
  rw [hmul, Out.ok_bind, split_ok hq.factor.fnOk, Out.ok_bind, toFn_single hp]
  simp only [List.map_cons, List.map_nil]
  rw [hk1, hq.factorDirs, asFunctions_keys, hR, Out.ok_bind, newAdd_ok hg hpart (by rw [hofin]; exact hJ.left), Out.ok_bind,
    List.mapM_map]
  rw [mapM_ok (g := fun s => (s, v (args : Product F) s))]
  · obtain ⟨t, ht, hs⟩ := hr _ (hmem args hargs) _ hblk
    rw [Out.ok_bind, ht, Out.ok_bind, hs]
  · intro s hs
    simp only [Function.comp_apply]
    rw [quad_project_ok hq hp (sorted_sort s) _ (hblk.not_couples hs), Out.ok_bind]
    · have := hv _ (hmem args hargs) _ hblk s hs
      rw [SFn.ofProduct, this, Out.ok_bind]
    · intro d hdd
      rw [Finset.mem_sort] at hdd
      exact List.mem_toFinset.1 ((hpart.cover d).2 ⟨s, List.mem_toFinset.2 hs, hdd⟩)

end Hermipy
