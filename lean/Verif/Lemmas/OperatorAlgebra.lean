import Verif.Model.OperatorAlgebra
import Verif.Spec.OperatorAlgebra
import Verif.Props.Operator

/-! # Lemmas about the arithmetic of operators -/

namespace Hermipy
open Hermipy.Spec Hermipy.Props

variable {K : Type} [CommRing K] {D : ℕ → K → K}

theorem Spec.Partials.zero (h : Partials D) (d : ℕ) : D d 0 = 0 := by
  have := h.add d 0 0
  simpa using this

theorem Spec.Partials.sum (h : Partials D) (d : ℕ) (l : List K) : D d l.sum = (l.map (D d)).sum := by
  induction l with
  | nil => simpa using h.zero d
  | cons a l ih => rw [List.sum_cons, h.add, ih, List.map_cons, List.sum_cons]

theorem Spec.Partials.iter_add (h : Partials D) (d n : ℕ) (u v : K) : (D d)^[n] (u + v) = (D d)^[n] u + (D d)^[n] v := by
  induction n with
  | zero => rfl
  | succ n ih => simp only [Function.iterate_succ_apply', ih, h.add]

theorem partials_add (h : Partials D) : ∀ (dirs a : List ℕ) (u v : K), partials D dirs a (u + v) = partials D dirs a u + partials D dirs a v
  | [], [], _, _ => rfl
  | [], _ :: _, _, _ => rfl
  | _ :: _, [], _, _ => rfl
  | d :: dirs, a :: index, u, v => by rw [partials, partials_add h dirs index, h.iter_add]; rfl

theorem partials_zero_arg (h : Partials D) (dirs a : List ℕ) : partials D dirs a 0 = 0 := by
  have := partials_add h dirs a 0 0
  simpa using this

theorem iter_comm (h : Partials D) (d e n : ℕ) (u : K) : D d ((D e)^[n] u) = (D e)^[n] (D d u) :=
  Function.Commute.iterate_right (f := D d) (g := D e) (fun u => h.comm d e u) n u

theorem partials_comm (h : Partials D) (e : ℕ) : ∀ (dirs a : List ℕ) (u : K), D e (partials D dirs a u) = partials D dirs a (D e u)
  | [], [], _ => rfl
  | [], _ :: _, _ => rfl
  | _ :: _, [], _ => rfl
  | d :: dirs, a :: index, u => by rw [partials, partials, iter_comm h, partials_comm h e dirs index]

theorem partials_bump (h : Partials D) {d : ℕ} (u : K) : ∀ {dirs a : List ℕ}, d ∈ dirs → a.length = dirs.length →
    partials D dirs (a.modify (dirs.idxOf d) (· + 1)) u = D d (partials D dirs a u)
  | e :: dirs, a :: index, hd, hl => by
    by_cases hed : e = d
    · subst hed
      rw [List.idxOf_cons_self, List.modify_zero_cons, partials, partials, Function.iterate_succ_apply']
    · have hd' : d ∈ dirs := by
        rcases List.mem_cons.1 hd with h1 | h1
        · exact absurd h1.symm hed
        · exact h1
      rw [List.idxOf_cons_ne _ hed, List.modify_succ_cons, partials, partials, partials_bump h u hd' (by simpa using hl), iter_comm h]
  | [], _, hd, _ => by simp at hd
  | _ :: _, [], _, hl => by simp at hl

omit [CommRing K] in
theorem partials_none (u : K) : ∀ dirs : List ℕ, partials D dirs (List.replicate dirs.length 0) u = u
  | [] => rfl
  | d :: dirs => by rw [List.length_cons, List.replicate_succ, partials, partials_none u dirs]; rfl

/-! ## The action of lists of terms -/

theorem acts_nil (dirs : List ℕ) (u : K) : acts D dirs [] u = 0 := rfl

theorem acts_cons (dirs : List ℕ) (t : OpTerm K) (T : List (OpTerm K)) (u : K) :
    acts D dirs (t :: T) u = t.coeff * partials D dirs t.index u + acts D dirs T u := by
  simp [acts, apply]

theorem acts_append (dirs : List ℕ) (S T : List (OpTerm K)) (u : K) : acts D dirs (S ++ T) u = acts D dirs S u + acts D dirs T u := by
  simp [acts, apply]

theorem acts_scale (dirs : List ℕ) (c : K) (T : List (OpTerm K)) (u : K) : acts D dirs (scaleTerms c T) u = c * acts D dirs T u := by
  induction T with
  | nil => simp [scaleTerms, acts, apply]
  | cons t T ih =>
    rw [show scaleTerms c (t :: T) = ⟨c * t.coeff, t.index⟩ :: scaleTerms c T from rfl, acts_cons, acts_cons, ih]
    ring

theorem acts_add (h : Partials D) (dirs : List ℕ) (T : List (OpTerm K)) (u v : K) :
    acts D dirs T (u + v) = acts D dirs T u + acts D dirs T v := by
  induction T with
  | nil => simp [acts_nil]
  | cons t T ih => rw [acts_cons, acts_cons, acts_cons, ih, partials_add h]; ring

/-- All terms have an order for each direction. -/
def Wide (n : ℕ) (T : List (OpTerm K)) : Prop := ∀ t ∈ T, t.index.length = n

theorem wide_scale {n : ℕ} {c : K} {T : List (OpTerm K)} (h : Wide n T) : Wide n (scaleTerms c T) := by
  intro t ht
  obtain ⟨s, hs, rfl⟩ := List.mem_map.1 ht
  exact h s hs

omit [CommRing K] in
theorem wide_append {n : ℕ} {S T : List (OpTerm K)} (hS : Wide n S) (hT : Wide n T) : Wide n (S ++ T) := by
  intro t ht
  rcases List.mem_append.1 ht with h | h
  · exact hS t h
  · exact hT t h

theorem wide_diff {n : ℕ} {fdirs : List ℕ} {d : ℕ} {T : List (OpTerm K)} (h : Wide n T) : Wide n (diffTerms D fdirs d T) := by
  intro t ht
  obtain ⟨s, hs, ht⟩ := List.mem_flatMap.1 ht
  rw [diffTerm] at ht
  rcases List.mem_cons.1 ht with rfl | ht
  · exact h s hs
  · split at ht
    · obtain rfl := List.mem_singleton.1 ht
      simpa using h s hs
    · simp at ht

theorem wide_iter {n : ℕ} {fdirs : List ℕ} {d : ℕ} (k : ℕ) {T : List (OpTerm K)} (h : Wide n T) : Wide n ((diffTerms D fdirs d)^[k] T) := by
  induction k with
  | zero => exact h
  | succ k ih => rw [Function.iterate_succ_apply']; exact wide_diff ih

theorem wide_diffs {n : ℕ} {fdirs : List ℕ} {T : List (OpTerm K)} (h : Wide n T) : ∀ dirs index : List ℕ,
    Wide n (diffsTerms D fdirs dirs index T)
  | [], [] => h
  | [], _ :: _ => h
  | _ :: _, [] => h
  | d :: dirs, a :: index => by rw [diffsTerms]; exact wide_iter a (wide_diffs h dirs index)

theorem wide_subst {n : ℕ} {fdirs : List ℕ} {A : HOp K} {T : List (OpTerm K)} (h : Wide n T) : Wide n (substTerms D fdirs A T) := by
  intro t ht
  obtain ⟨s, hs, ht⟩ := List.mem_flatMap.1 ht
  exact wide_scale (wide_diffs h _ _) t ht

theorem acts_diffTerm (h : Partials D) {fdirs : List ℕ} {d : ℕ} {t : OpTerm K} (hl : t.index.length = fdirs.length) {u : K}
    (hu : DependsOn D fdirs u) : acts D fdirs (diffTerm D fdirs d t) u = D d (t.coeff * partials D fdirs t.index u) := by
  rw [diffTerm, h.mul, acts_cons]
  congr 1
  split
  · rename_i hd
    rw [acts_cons, acts_nil, add_zero, partials_bump h u hd hl]
  · rename_i hd
    rw [acts_nil, partials_comm h, hu d hd, partials_zero_arg h, mul_zero]

theorem acts_diff (h : Partials D) {fdirs : List ℕ} {d : ℕ} {T : List (OpTerm K)} (hl : Wide fdirs.length T) {u : K}
    (hu : DependsOn D fdirs u) : acts D fdirs (diffTerms D fdirs d T) u = D d (acts D fdirs T u) := by
  induction T with
  | nil => simpa [diffTerms, acts_nil] using (h.zero d).symm
  | cons t T ih =>
    rw [show diffTerms D fdirs d (t :: T) = diffTerm D fdirs d t ++ diffTerms D fdirs d T from rfl, acts_append, acts_cons, h.add,
      ih fun t ht => hl t (List.mem_cons_of_mem _ ht), acts_diffTerm h (hl t (by simp)) hu]

theorem acts_iter (h : Partials D) {fdirs : List ℕ} {d : ℕ} (k : ℕ) {T : List (OpTerm K)} (hl : Wide fdirs.length T) {u : K}
    (hu : DependsOn D fdirs u) : acts D fdirs ((diffTerms D fdirs d)^[k] T) u = (D d)^[k] (acts D fdirs T u) := by
  induction k with
  | zero => rfl
  | succ k ih => rw [Function.iterate_succ_apply', Function.iterate_succ_apply', acts_diff h (wide_iter k hl) hu, ih]

theorem acts_diffs (h : Partials D) {fdirs : List ℕ} {T : List (OpTerm K)} (hl : Wide fdirs.length T) {u : K}
    (hu : DependsOn D fdirs u) : ∀ dirs index : List ℕ,
      acts D fdirs (diffsTerms D fdirs dirs index T) u = partials D dirs index (acts D fdirs T u)
  | [], [] => rfl
  | [], _ :: _ => rfl
  | _ :: _, [] => rfl
  | d :: dirs, a :: index => by
    rw [diffsTerms, partials, acts_iter h a (wide_diffs hl dirs index) hu, acts_diffs h hl hu dirs index]

theorem acts_subst (h : Partials D) {fdirs : List ℕ} {T : List (OpTerm K)} (hl : Wide fdirs.length T) {u : K} (hu : DependsOn D fdirs u)
    (A : HOp K) : acts D fdirs (substTerms D fdirs A T) u = acts D A.dirs A.terms (acts D fdirs T u) := by
  rw [substTerms]
  induction A.terms with
  | nil => rfl
  | cons t ts ih => rw [List.flatMap_cons, acts_append, ih, acts_cons, acts_scale, acts_diffs h hl hu]

theorem diffsExpr_eq (c : K) : ∀ dirs index : List ℕ, diffsExpr D dirs index c = partials D dirs index c
  | [], [] => rfl
  | [], _ :: _ => rfl
  | _ :: _, [] => rfl
  | d :: dirs, a :: index => by rw [diffsExpr, partials, diffsExpr_eq c dirs index]

theorem substExpr_eq (A : HOp K) (c : K) : substExpr D A c = acts D A.dirs A.terms c := by
  simp only [substExpr, acts, apply, diffsExpr_eq]

/-! ## Collecting like terms -/

variable [DecidableEq K]

theorem sumAt_eq (T : List (OpTerm K)) (m : List ℕ) : sumAt T m = coeffAt T m := rfl

theorem mem_collect {T : List (OpTerm K)} {t : OpTerm K} : t ∈ collect T ↔ t.coeff = coeffAt T t.index ∧ t.coeff ≠ 0 := by
  rw [collect, List.mem_filterMap]
  constructor
  · rintro ⟨m, hm, e⟩
    split at e
    · simp at e
    · rename_i hne
      obtain rfl := Option.some.inj e
      exact ⟨rfl, hne⟩
  · rintro ⟨e, hne⟩
    refine ⟨t.index, ?_, ?_⟩
    · rw [List.mem_dedup, List.mem_map]
      by_contra hc
      push Not at hc
      apply hne
      rw [e, coeffAt, List.filter_eq_nil_iff.2, List.map_nil, List.sum_nil]
      intro s hs
      simpa using hc s hs
    · rw [sumAt_eq, if_neg (e ▸ hne), ← e]

theorem collect_index_nodup (T : List (OpTerm K)) : ((collect T).map OpTerm.index).Nodup := by
  have key : ∀ P : List (List ℕ), P.Nodup →
      ((P.filterMap fun m => if sumAt T m = 0 then none else some (⟨sumAt T m, m⟩ : OpTerm K)).map OpTerm.index).Sublist P := by
    intro P _
    induction P with
    | nil => simp
    | cons m P ih =>
      rw [List.filterMap_cons]
      by_cases hz : sumAt T m = 0
      · simp only [hz, if_true]
        exact (ih (by simp_all)).trans (List.sublist_cons_self _ _)
      · simp only [hz, if_false]
        exact List.Sublist.cons_cons _ (ih (by simp_all))
  exact (key _ (List.nodup_dedup _)).nodup (List.nodup_dedup _)

theorem apply_collect (T : List (OpTerm K)) (d : List ℕ → K) : apply (collect T) d = apply T d := by
  rw [apply_eq d (T.map OpTerm.index).dedup T (List.nodup_dedup _) fun t ht => by
    rw [List.mem_dedup]; exact List.mem_map_of_mem ht, collect, apply]
  induction (T.map OpTerm.index).dedup with
  | nil => rfl
  | cons m P ih =>
    rw [List.filterMap_cons, List.map_cons, List.sum_cons]
    by_cases hz : sumAt T m = 0
    · rw [← sumAt_eq, hz]
      simpa using ih
    · simp only [hz, if_false, List.map_cons, List.sum_cons]
      rw [ih, sumAt_eq]

theorem acts_collect (dirs : List ℕ) (T : List (OpTerm K)) (u : K) : acts D dirs (collect T) u = acts D dirs T u := apply_collect T _

theorem coeffAt_collect (T : List (OpTerm K)) (m : List ℕ) : coeffAt (collect T) m = coeffAt T m := by
  have h : ∀ S : List (OpTerm K), apply S (fun a => if a = m then 1 else 0) = coeffAt S m := by
    intro S
    rw [apply, coeffAt]
    induction S with
    | nil => rfl
    | cons s S ih =>
      by_cases e : s.index = m
      · simp [e] at ih ⊢; rw [ih]
      · simp [e] at ih ⊢; rw [ih]
  rw [← h, apply_collect, h]

theorem wide_collect {n : ℕ} {T : List (OpTerm K)} (h : Wide n T) : Wide n (collect T) := by
  intro t ht
  obtain ⟨e, hne⟩ := mem_collect.1 ht
  rw [e, coeffAt] at hne
  by_contra hc
  apply hne
  rw [List.filter_eq_nil_iff.2, List.map_nil, List.sum_nil]
  intro s hs hsi
  have := of_decide_eq_true hsi
  exact hc (this ▸ h s hs)

end Hermipy
