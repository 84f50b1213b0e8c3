import Verif.Model.QuadTensorize
import Verif.Spec.QuadTensorize
import Verif.Lemmas.VarfTensorize
import Verif.Lemmas.QuadIntegrate
import Verif.Props.Position
import Verif.Props.VarfTensorize

namespace Hermipy
open Spec
variable {F : Type}

/-! ## The loop over the arguments -/

theorem set_idxOf_update {β : Type} {D : List ℕ} (hD : D.Nodup) {d : ℕ} (hd : d ∈ D) (g : ℕ → β) (v : β) :
    (D.map g).set (D.idxOf d) v = D.map (Function.update g d v) := by
  apply List.ext_getElem
  · simp
  · intro i h1 h2
    have hi : i < D.length := by simpa using h2
    rw [List.getElem_set, List.getElem_map, List.getElem_map]
    split
    · rename_i h
      subst h
      rw [List.getElem_idxOf, Function.update_self]
    · rename_i h
      rw [Function.update_of_ne]
      intro e
      exact h (by rw [← e]; exact hD.idxOf_getElem i hi)

theorem fill_fold {D : List ℕ} (hD : D.Nodup) (a : HQuad F) : ∀ (l : List (ℕ × ℕ)) (g : ℕ → Option (List ℝ × List ℝ)),
    (∀ e ∈ l, e.1 ∈ D ∧ e.2 < a.nodes.length ∧ e.2 < a.weights.length) →
    l.foldlM (fillSlot D a) (D.map g) =
      .ok (D.map (l.foldl (fun g e => Function.update g e.1 (some (a.nodes.getD e.2 [], a.weights.getD e.2 []))) g))
  | [], g, _ => rfl
  | e :: l, g, h => by
    obtain ⟨h1, h2, h3⟩ := h e (by simp)
    rw [List.foldlM_cons, fillSlot, pyget_some (List.getElem?_eq_getElem h2), Out.ok_bind, pyindex, if_pos h1, Out.ok_bind,
      pyget_some (List.getElem?_eq_getElem h3), Out.ok_bind, Out.ok_bind, set_idxOf_update hD h1, fill_fold hD a l _ fun e he => h e (by simp [he]),
      List.foldl_cons]
    simp [h2, h3]

theorem update_fold_of_notMem {β : Type} (v : ℕ × ℕ → β) {d : ℕ} : ∀ (l : List (ℕ × ℕ)) (g : ℕ → β), d ∉ l.map Prod.fst →
    l.foldl (fun g e => Function.update g e.1 (v e)) g d = g d
  | [], g, _ => rfl
  | e :: l, g, h => by
    simp only [List.map_cons, List.mem_cons, not_or] at h
    rw [List.foldl_cons, update_fold_of_notMem v l _ h.2, Function.update_of_ne h.1]

theorem update_fold_of_mem {β : Type} (v : ℕ × ℕ → β) : ∀ (l : List (ℕ × ℕ)) (g : ℕ → β), (l.map Prod.fst).Nodup → ∀ e ∈ l,
    l.foldl (fun g e => Function.update g e.1 (v e)) g e.1 = v e
  | e' :: l, g, hn, e, he => by
    rw [List.map_cons, List.nodup_cons] at hn
    rw [List.foldl_cons]
    rcases List.mem_cons.1 he with rfl | he
    · rw [update_fold_of_notMem v l _ hn.1, Function.update_self]
    · exact update_fold_of_mem v l _ hn.2 e he

theorem Spec.QuadOk.weights_length {q : HQuad F} (hq : QuadOk q) : q.weights.length = q.nodes.length := by
  simpa using congrArg List.length hq.weights

/-- The slots after one argument. -/
theorem fill_quad {D : List ℕ} (hD : D.Nodup) {a : HQuad F} (ha : QuadOk a) (hm : ∀ d ∈ a.position.dirs, d ∈ D)
    (g : ℕ → Option (List ℝ × List ℝ)) : ∃ g', a.position.dirs.zipIdx.foldlM (fillSlot D a) (D.map g) = .ok (D.map g') ∧
      (∀ d ∈ a.position.dirs, g' d = some (nodesIn a d, weightsIn a d)) ∧ ∀ d, d ∉ a.position.dirs → g' d = g d := by
  have hd := ha.pos.dirs
  have hn := ha.dim
  have hw := ha.weights_length
  have hfst : a.position.dirs.zipIdx.map Prod.fst = a.position.dirs := by simp
  refine ⟨_, fill_fold hD a _ g ?_, ?_, ?_⟩
  · intro e he
    obtain ⟨h1, h2⟩ := List.mem_zipIdx' he
    refine ⟨hm _ (h2 ▸ List.getElem_mem h1), by omega, by omega⟩
  · intro d hdd
    have hi := List.idxOf_lt_length_of_mem hdd
    have he : (d, a.position.dirs.idxOf d) ∈ a.position.dirs.zipIdx := by
      rw [List.mem_zipIdx_iff_getElem?]
      simp [hi]
    exact update_fold_of_mem (fun e => some (a.nodes.getD e.2 [], a.weights.getD e.2 [])) _ g (by rw [hfst]; exact ha.pos.nodup) _ he
  · intro d hdd
    exact update_fold_of_notMem (fun e => some (a.nodes.getD e.2 [], a.weights.getD e.2 [])) _ g (by rw [hfst]; exact hdd)

/-- The slots after all arguments. -/
theorem fill_quads {D : List ℕ} (hD : D.Nodup) : ∀ (args : List (HQuad F)) (g : ℕ → Option (List ℝ × List ℝ)), (∀ a ∈ args, QuadOk a) →
    (∀ a ∈ args, ∀ d ∈ a.position.dirs, d ∈ D) → (args.map fun a => a.position.dirs).flatten.Nodup →
    ∃ g', args.foldlM (fun slots b => b.position.dirs.zipIdx.foldlM (fillSlot D b) slots) (D.map g) = .ok (D.map g') ∧
      (∀ a ∈ args, ∀ d ∈ a.position.dirs, g' d = some (nodesIn a d, weightsIn a d)) ∧
      ∀ d, (∀ a ∈ args, d ∉ a.position.dirs) → g' d = g d
  | [], g, _, _, _ => ⟨g, rfl, by simp, by simp⟩
  | a :: args, g, hok, hm, hn => by
    rw [List.map_cons, List.flatten_cons, List.nodup_append'] at hn
    obtain ⟨g1, e1, h1, h2⟩ := fill_quad hD (hok a (by simp)) (hm a (by simp)) g
    obtain ⟨g2, e2, h3, h4⟩ := fill_quads hD args g1 (fun b hb => hok b (by simp [hb])) (fun b hb => hm b (by simp [hb])) hn.2.1
    refine ⟨g2, by rw [List.foldlM_cons, e1, Out.ok_bind, e2], ?_, ?_⟩
    · intro b hb d hd
      rcases List.mem_cons.1 hb with rfl | hb
      · rw [h4 d, h1 d hd]
        intro c hc hdc
        exact hn.2.2 hd (List.mem_flatten.2 ⟨_, List.mem_map.2 ⟨c, hc, rfl⟩, hdc⟩)
      · exact h3 b hb d hd
    · intro d hd
      rw [h4 d fun b hb => hd b (by simp [hb]), h2 d (hd a (by simp))]

/-! ## Factors -/

theorem vars_mulFold {P : ℕ → Prop} : ∀ (As : List (HQuad F)) (t : Multiset (Product F)),
    (∀ A ∈ As, ∀ p ∈ A.factor.terms, ∀ x ∈ p.vars, P x) → (∀ p ∈ t, ∀ x ∈ p.vars, P x) →
    ∀ p ∈ As.foldl (fun t b => mulTerms t b.factor.terms) t, ∀ x ∈ p.vars, P x
  | [], t, _, ht => ht
  | A :: As, t, hA, ht => by
    refine vars_mulFold As _ (fun B hB => hA B (by simp [hB])) ?_
    intro p hp x hx
    obtain ⟨a, ha, b, hb, rfl⟩ := mem_mulTerms.1 hp
    obtain ⟨f, hf, hxf⟩ := hx
    rcases Multiset.mem_add.1 hf with hf | hf
    · exact ht a ha x (⟨f, hf, hxf⟩)
    · exact hA A (by simp) b hb x (⟨f, hf, hxf⟩)

/-- The product of the factors of some quadratures. -/
def quadTerms (As : List (HQuad F)) : Multiset (Product F) := As.foldl (fun t b => mulTerms t b.factor.terms) {0}

theorem value_quadTerms [Interp F] (As : List (HQuad F)) (ds : List ℕ) (x : ℕ → ℝ) :
    SFn.value ⟨ds, quadTerms As⟩ x = (As.map fun A => A.factor.value x).prod := by
  have key : ∀ (As : List (HQuad F)) (t : Multiset (Product F)),
      ((As.foldl (fun t b => mulTerms t b.factor.terms) t).map fun p => productValue p x).sum =
      (t.map fun p => productValue p x).sum * (As.map fun A => A.factor.value x).prod := by
    intro As
    induction As with
    | nil => intro t; simp
    | cons A As ih =>
      intro t
      rw [List.foldl_cons, ih, Props.value_mulTerms, List.map_cons, List.prod_cons, mul_assoc]
      rfl
  rw [SFn.value, quadTerms]
  simp only
  rw [key]
  simp [productValue]

theorem quadTerms_single (t : HQuad F → Product F) (As : List (HQuad F)) (h : ∀ A ∈ As, A.factor.terms = {t A}) :
    quadTerms As = {(As.map t).sum} := by
  have key : ∀ (As : List (HQuad F)) (u : Product F), (∀ A ∈ As, A.factor.terms = {t A}) →
      As.foldl (fun t b => mulTerms t b.factor.terms) {u} = {u + (As.map t).sum} := by
    intro As
    induction As with
    | nil => intro u _; simp
    | cons A As ih =>
      intro u h
      rw [List.foldl_cons, h A (by simp)]
      have : mulTerms {u} {t A} = {u + t A} := by simp [mulTerms]
      rw [this, ih _ fun B hB => h B (by simp [hB])]
      simp [add_assoc]
  rw [quadTerms, key _ _ h, zero_add]

/-! ## Positions -/

theorem pos_tensorize_all {ps : List Position} (hne : ps ≠ []) (hok : ∀ p ∈ ps, PosOk p) (hdiag : ∀ p ∈ ps, Diagonal p)
    (hsort : ∀ p ∈ ps, p.dirs.Pairwise (· < ·)) {D : List ℕ} (hD : D.Pairwise (· < ·)) (hperm : (ps.map Position.dirs).flatten.Perm D) :
    ∃ P, pos_tensorize ps = .ok P ∧ PosOk P ∧ Diagonal P ∧ P.dirs = D ∧ ∀ d x, Has P d x ↔ ∃ p ∈ ps, Has p d x := by
  by_cases h2 : 2 ≤ ps.length
  · exact pos_tensorize_disjoint h2 hok (fun p hp => (hdiag p hp).is_diag) hD hperm
  · match ps, hne, h2 with
    | p :: q :: l, _, h2 => simp at h2
    | [p], _, _ =>
      refine ⟨p, Props.C52_single p (hok p (by simp)) (hdiag p (by simp)).is_diag, hok p (by simp), hdiag p (by simp), ?_, by simp⟩
      have hp : p.dirs.Perm D := by simpa using hperm
      exact hp.eq_of_pairwise (fun a b _ _ h1 h2 => absurd h1 (not_lt.2 (le_of_lt h2))) (hsort p (by simp)) hD

theorem mem_flatten_dirs {args : List (HQuad F)} {D : List ℕ} (hperm : (args.map fun a => a.position.dirs).flatten.Perm D) {d : ℕ} :
    d ∈ D ↔ ∃ a ∈ args, d ∈ a.position.dirs := by
  rw [← hperm.mem_iff, List.mem_flatten]
  simp

theorem Spec.Multipliable.mem {args : List (HQuad F)} {D : List ℕ} {n : ℕ} (h : Multipliable args D n) {d : ℕ} :
    d ∈ D ↔ ∃ a ∈ args, d ∈ a.position.dirs := mem_flatten_dirs h.perm

/-- The arguments of the constructor at the end. -/
theorem quad_tensorize_run {args : List (HQuad F)} {D : List ℕ} (hne : args ≠ []) (hok : ∀ a ∈ args, QuadOk a) (hD : D.Pairwise (· < ·))
    (hperm : (args.map fun a => a.position.dirs).flatten.Perm D) :
    ∃ (P : Position) (N W : ℕ → List ℝ), quad_tensorize args = mkQuad (D.map N) (D.map W) P ⟨D, quadTerms args⟩ ∧
      PosOk P ∧ Diagonal P ∧ P.dirs = D ∧ (∀ d x, Has P d x ↔ ∃ a ∈ args, Has a.position d x) ∧
      (∀ a ∈ args, ∀ d ∈ a.position.dirs, N d = nodesIn a d ∧ W d = weightsIn a d) ∧ ∀ p ∈ quadTerms args, ∀ x ∈ p.vars, x ∈ D := by
  have hmem : ∀ {d}, d ∈ D ↔ ∃ a ∈ args, d ∈ a.position.dirs := mem_flatten_dirs hperm
  have hDn : D.Nodup := hD.imp (ne_of_lt ·)
  obtain ⟨P, eP, okP, diagP, dirsP, hasP⟩ := pos_tensorize_all (ps := args.map HQuad.position) (by simpa using hne)
    (by simpa using fun a ha => (hok a ha).pos) (by simpa using fun a ha => (hok a ha).diag)
    (by simpa using fun a ha => (hok a ha).sorted) hD (by simpa [Function.comp_def] using hperm)
  obtain ⟨g, eg, hg, -⟩ := fill_quads hDn args (fun _ => none) hok (fun a ha d hd => hmem.2 ⟨a, ha, hd⟩) (hperm.nodup_iff.2 hDn)
  have hgD : ∀ d ∈ D, g d = some ((g d).getD ([], [])) := by
    intro d hd
    obtain ⟨a, ha, hda⟩ := hmem.1 hd
    rw [hg a ha d hda]
    rfl
  have hvars : ∀ p ∈ quadTerms args, ∀ x ∈ p.vars, x ∈ D := by
    refine vars_mulFold args {0} ?_ ?_
    · rintro a ha p hp x ⟨f, hf, hx⟩
      refine hmem.2 ⟨a, ha, ?_⟩
      rw [← (hok a ha).factorDirs]
      exact (hok a ha).factor.vars p hp f hf x hx
    · intro p hp x hx
      rw [Multiset.mem_singleton] at hp
      subst hp
      obtain ⟨f, hf, -⟩ := hx
      simp at hf
  have hNW : ∀ a ∈ args, ∀ d ∈ a.position.dirs, ((g d).getD ([], [])).1 = nodesIn a d ∧ ((g d).getD ([], [])).2 = weightsIn a d := by
    intro a ha d hd
    rw [hg a ha d hd]
    exact ⟨rfl, rfl⟩
  refine ⟨P, fun d => ((g d).getD ([], [])).1, fun d => ((g d).getD ([], [])).2, ?_, okP, diagP, dirsP, by simpa using hasP, hNW, hvars⟩
  match args, hne with
  | a :: as, _ =>
    have hrep : List.replicate P.dirs.length (none : Option (List ℝ × List ℝ)) = D.map fun _ => none := by
      rw [dirsP]; simp
    rw [quad_tensorize, eP, Out.ok_bind, hrep]
    simp only [dirsP]
    rw [eg, Out.ok_bind, List.mapM_map, mapM_ok (g := fun d => (g d).getD ([], [])), Out.ok_bind, if_neg]
    · simp only [List.map_map, Function.comp_def]
      rfl
    · rw [not_or, not_not, isSorted]
      rw [dirsP]
      refine ⟨hD.imp le_of_lt, ?_⟩
      rintro ⟨p, hp, x, hx, hxd⟩
      exact hxd (hvars p hp x hx)
    · intro d hd
      simp only [Function.comp_apply]
      rw [hgD d hd]
      rfl

/-- The product of quadratures. -/
theorem quad_tensorize_ok {args : List (HQuad F)} {D : List ℕ} {n : ℕ} (h : Multipliable args D n) :
    ∃ (P : Position) (N W : ℕ → List ℝ), quad_tensorize args = .ok ⟨D.map N, D.map W, P, ⟨D, quadTerms args⟩⟩ ∧
      QuadOk (⟨D.map N, D.map W, P, ⟨D, quadTerms args⟩⟩ : HQuad F) ∧ P.dirs = D ∧ (∀ d x, Has P d x ↔ ∃ a ∈ args, Has a.position d x) ∧
      ∀ a ∈ args, ∀ d ∈ a.position.dirs, N d = nodesIn a d ∧ W d = weightsIn a d := by
  obtain ⟨P, N, W, e, okP, diagP, dirsP, hasP, hNW, hvars⟩ := quad_tensorize_run h.ne h.ok h.sorted h.perm
  have hlen : ∀ d ∈ D, (N d).length = n ∧ (W d).length = n := by
    intro d hd
    obtain ⟨a, ha, hda⟩ := h.mem.1 hd
    obtain ⟨h1, h2⟩ := hNW a ha d hda
    have hi := List.idxOf_lt_length_of_mem hda
    have ok := h.ok a ha
    have hi1 : a.position.dirs.idxOf d < a.nodes.length := by rw [ok.dim, ← ok.pos.dirs]; exact hi
    have hi2 : a.position.dirs.idxOf d < a.weights.length := by rw [ok.weights_length]; exact hi1
    have e1 : (nodesIn a d).length = n := by
      rw [nodesIn]
      refine h.points a ha _ ?_
      simp [hi1]
    have e2 : (weightsIn a d).length = (nodesIn a d).length := by
      have := congrArg (fun l => l.getD (a.position.dirs.idxOf d) 0) ok.weights
      simpa [hi1, hi2, nodesIn, weightsIn] using this
    rw [h1, h2]
    exact ⟨e1, by rw [e2, e1]⟩
  have hDne : D ≠ [] := by
    obtain ⟨a, as, rfl⟩ := List.exists_cons_of_ne_nil h.ne
    obtain ⟨x, xs, hx⟩ := List.exists_cons_of_ne_nil (h.ok a (by simp)).dirs_ne
    have : x ∈ D := h.mem.2 ⟨a, by simp, by rw [hx]; simp⟩
    exact List.ne_nil_of_mem this
  have hu : ∀ N : ℕ → List ℝ, (∀ d ∈ D, (N d).length = n) → uniform (D.map N) := by
    intro N hN r hr
    obtain ⟨d, hd, rfl⟩ := List.mem_map.1 hr
    obtain ⟨x, xs, rfl⟩ := List.exists_cons_of_ne_nil hDne
    rw [hN d hd]
    simp [hN x (by simp)]
  have hnpos : 0 < n := by
    obtain ⟨a, as, rfl⟩ := List.exists_cons_of_ne_nil h.ne
    have ok := h.ok a (by simp)
    obtain ⟨r, rs, hr⟩ := List.exists_cons_of_ne_nil ok.grid.dim_pos
    rw [← h.points a (by simp) r (by rw [hr]; simp)]
    exact List.length_pos_iff.2 (ok.grid.nodes_pos r (by rw [hr]; simp))
  refine ⟨P, N, W, ?_, ?_, dirsP, hasP, hNW⟩
  · rw [e, mkQuad, if_neg]
    rw [not_or, not_not, not_not]
    exact ⟨hu _ fun d hd => (hlen d hd).1, hu _ fun d hd => (hlen d hd).2⟩
  · have hdim : P.dim = D.length := by rw [← okP.dirs, dirsP]
    refine ⟨okP, diagP, by simp [hdim], ?_, ?_, hu _ fun d hd => (hlen d hd).1, ⟨h.sorted, ?_⟩, dirsP.symm⟩
    · refine ⟨by simpa using hDne, ?_, ⟨?_, ?_⟩, ?_⟩
      · intro r hr
        obtain ⟨d, hd, rfl⟩ := List.mem_map.1 hr
        exact List.length_pos_iff.1 (by rw [(hlen d hd).1]; exact hnpos)
      · simp [HQuad.do_fourier, okP.types, hdim]
      · intro f hf
        simp only [HQuad.do_fourier, List.mem_map] at hf
        obtain ⟨t, -, rfl⟩ := hf
        split <;> simp
      · rw [gridPoints, length_cartesian]
        have : (D.map fun d => N d).map List.length = List.replicate D.length n := by
          rw [List.map_map, List.eq_replicate_iff]
          refine ⟨by simp, ?_⟩
          intro b hb
          obtain ⟨d, hd, rfl⟩ := List.mem_map.1 hb
          exact (hlen d hd).1
        rw [this, List.prod_replicate]
        exact h.small
    · rw [List.map_map, List.map_map]
      apply List.map_congr_left
      intro d hd
      exact ((hlen d hd).2).trans ((hlen d hd).1).symm
    · intro p hp a ha d hd
      exact hvars p hp d ⟨a, ha, hd⟩

end Hermipy
