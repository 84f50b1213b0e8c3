import Verif.Model.Iterators
import Mathlib.Data.Set.Finite.Basic
import Mathlib.Data.Set.Card
import Mathlib.Data.List.Basic

/-!
# Enumeration by a successor function

If an increment is the successor function of a strict order on a finite set, the constructor loop terminates and lists the
set in increasing order.
-/

namespace Hermipy

/-- `Runs inc m L`: starting from `m`, the do-while loop visits exactly `L` and stops. -/
inductive Runs (inc : IVec → Out (Bool × IVec)) : IVec → List IVec → Prop
  | last {m m'} : inc m = .ok (true, m') → Runs inc m [m]
  | next {m m' L} : inc m = .ok (false, m') → Runs inc m' L → Runs inc m (m :: L)

/-- Strict order on the set `P`. -/
structure StrictOn (P : IVec → Prop) (lt : IVec → IVec → Prop) : Prop where
  irrefl : ∀ x, P x → ¬ lt x x
  trans : ∀ x y z, P x → P y → P z → lt x y → lt y z → lt x z
  total : ∀ x y, P x → P y → lt x y ∨ x = y ∨ lt y x

/-- `inc` is the successor function of `lt` on `P`, reporting `true` exactly at the greatest element. -/
def IsSucc (P : IVec → Prop) (lt : IVec → IVec → Prop) (inc : IVec → Out (Bool × IVec)) : Prop :=
  ∀ m, P m →
    (∃ m', inc m = .ok (true, m') ∧ ∀ x, P x → ¬ lt m x) ∨
    (∃ m', inc m = .ok (false, m') ∧ P m' ∧ lt m m' ∧ ∀ x, P x → lt m x → ¬ lt x m')

theorem Runs.ne_nil {inc : IVec → Out (Bool × IVec)} {m : IVec} {L : List IVec} (h : Runs inc m L) : L ≠ [] := by
  cases h <;> simp

theorem Runs.head {inc : IVec → Out (Bool × IVec)} {m : IVec} {L : List IVec} (h : Runs inc m L) :
    ∃ t, L = m :: t := by
  cases h <;> simp

theorem Runs.unique {inc : IVec → Out (Bool × IVec)} {m : IVec} {L L' : List IVec}
    (h : Runs inc m L) (h' : Runs inc m L') : L = L' := by
  induction h generalizing L' with
  | last e =>
    cases h' with
    | last _ => rfl
    | next e' _ => rw [e] at e'; simp at e'
  | next e _ ih =>
    cases h' with
    | last e' => rw [e] at e'; simp at e'
    | next e' h2 =>
      rw [e] at e'
      simp at e'
      subst e'
      rw [ih h2]

theorem runs_of_succ {P : IVec → Prop} {lt : IVec → IVec → Prop} {inc : IVec → Out (Bool × IVec)}
    (ho : StrictOn P lt) (hs : IsSucc P lt inc) (hfin : {x | P x}.Finite) :
    ∀ m, P m → ∃ L, Runs inc m L ∧ L.Pairwise lt ∧ ∀ x, x ∈ L ↔ (P x ∧ (x = m ∨ lt m x)) := by
  have key : ∀ n m, P m → ({x | P x ∧ lt m x}).ncard = n →
      ∃ L, Runs inc m L ∧ L.Pairwise lt ∧ ∀ x, x ∈ L ↔ (P x ∧ (x = m ∨ lt m x)) := by
    intro n
    induction n using Nat.strong_induction_on with
    | _ n ih =>
      intro m hm hn
      rcases hs m hm with ⟨m', e, hlast⟩ | ⟨m', e, hm', hlt, hnb⟩
      · refine ⟨[m], Runs.last e, by simp, fun x => ?_⟩
        simp only [List.mem_singleton]
        constructor
        · rintro rfl; exact ⟨hm, Or.inl rfl⟩
        · rintro ⟨hx, rfl | h⟩
          · rfl
          · exact absurd h (hlast x hx)
      · have hsub : {x | P x ∧ lt m' x} ⊂ {x | P x ∧ lt m x} := by
          refine ⟨fun x hx => ⟨hx.1, ho.trans _ _ _ hm hm' hx.1 hlt hx.2⟩, fun h => ?_⟩
          have : m' ∈ {x | P x ∧ lt m' x} := h ⟨hm', hlt⟩
          exact ho.irrefl _ hm' this.2
        have hfin' : {x | P x ∧ lt m x}.Finite := hfin.subset (fun x hx => hx.1)
        have hcard := Set.ncard_lt_ncard hsub hfin'
        rw [hn] at hcard
        obtain ⟨L, hr, hp, hmem⟩ := ih _ hcard m' hm' rfl
        refine ⟨m :: L, Runs.next e hr, ?_, fun x => ?_⟩
        · refine List.pairwise_cons.2 ⟨fun x hx => ?_, hp⟩
          rcases (hmem x).1 hx with ⟨hx, rfl | h⟩
          · exact hlt
          · exact ho.trans _ _ _ hm hm' hx hlt h
        · rw [List.mem_cons, hmem]
          constructor
          · rintro (rfl | ⟨hx, rfl | h⟩)
            · exact ⟨hm, Or.inl rfl⟩
            · exact ⟨hx, Or.inr hlt⟩
            · exact ⟨hx, Or.inr (ho.trans _ _ _ hm hm' hx hlt h)⟩
          · rintro ⟨hx, rfl | h⟩
            · exact Or.inl rfl
            · right
              refine ⟨hx, ?_⟩
              rcases ho.total x m' hx hm' with h' | h' | h'
              · exact absurd h' (hnb x hx h)
              · exact Or.inl h'
              · exact Or.inr h'
  intro m hm
  exact key _ m hm rfl

theorem pairwise_nodup {P : IVec → Prop} {lt : IVec → IVec → Prop} (ho : StrictOn P lt) {L : List IVec}
    (h : L.Pairwise lt) (hP : ∀ x ∈ L, P x) : L.Nodup := by
  induction L with
  | nil => simp
  | cons a t ih =>
    rw [List.pairwise_cons] at h
    refine List.nodup_cons.2 ⟨fun ha => ho.irrefl _ (hP a (by simp)) (h.1 a ha), ih h.2 ?_⟩
    intro x hx; exact hP x (by simp [hx])

/-- Two increasing lists, the first an initial segment (as sets) of the second: it is a prefix. -/
theorem prefix_of_sorted {P : IVec → Prop} {lt : IVec → IVec → Prop} (ho : StrictOn P lt) :
    ∀ {L0 L : List IVec}, L0.Pairwise lt → L.Pairwise lt → (∀ x ∈ L, P x) → (∀ x ∈ L0, x ∈ L) →
      (∀ x ∈ L0, ∀ y ∈ L, lt y x → y ∈ L0) → L0 <+: L
  | [], L, _, _, _, _, _ => List.nil_prefix
  | a :: t, [], _, _, _, hsub, _ => by simpa using hsub a (by simp)
  | a :: t, b :: s, h0, h1, hP, hsub, hin => by
    rw [List.pairwise_cons] at h0 h1
    have hab : a = b := by
      by_contra hne
      have ha : a ∈ s := by
        rcases List.mem_cons.1 (hsub a (by simp)) with h | h
        · exact absurd h hne
        · exact h
      have hba := h1.1 a ha
      have hb := hin a (by simp) b (by simp) hba
      rcases List.mem_cons.1 hb with h | h
      · exact hne h.symm
      · have hab := h0.1 b h
        have hPa := hP a (by simp [ha])
        have hPb := hP b (by simp)
        exact ho.irrefl a hPa (ho.trans a b a hPa hPb hPa hab hba)
    subst hab
    have hP' : ∀ x ∈ s, P x := fun x hx => hP x (by simp [hx])
    have := prefix_of_sorted (L0 := t) (L := s) ho h0.2 h1.2 hP' (fun x hx => by
        rcases List.mem_cons.1 (hsub x (by simp [hx])) with h | h
        · subst h
          exact absurd (h0.1 _ hx) (ho.irrefl _ (hP _ (by simp)))
        · exact h) (fun x hx y hy hyx => by
        rcases List.mem_cons.1 (hin x (by simp [hx]) y (by simp [hy]) hyx) with h | h
        · subst h
          exact absurd (h1.1 _ hy) (ho.irrefl _ (hP _ (by simp)))
        · exact h)
    rw [List.prefix_cons_inj]
    exact this

/-! ## The constructor loop -/

/-- Table after inserting the elements of `L` at positions `ind`, `ind + 1`, ... -/
def insertAll (t : HashTable) (ind : Nat) : List IVec → HashTable
  | [] => t
  | m :: L => insertAll (t.insert (hash_print m) ind) (ind + 1) L

theorem ctorLoop_of_runs {inc : IVec → Out (Bool × IVec)} {m : IVec} {L : List IVec} (h : Runs inc m L)
    (acc : List IVec) (t : HashTable) (ind : Nat) :
    ctorLoop inc m acc t ind = .ok (acc ++ L, insertAll t ind L) := by
  induction h generalizing acc t ind with
  | last e =>
    rw [ctorLoop]
    simp [e, insertAll]
  | next e _ ih =>
    rw [ctorLoop]
    simp [e, ih, insertAll]

/-- A freshly constructed iterator over the list `L`. -/
def freshIter (dim : Nat) (L : List IVec) : Iter where
  dim := dim
  list := L
  hash_table := insertAll (fun _ => none) 0 L
  index_list := 0
  multi_index := List.replicate dim 0
  full := false

theorem mkIter_of_runs {inc : IVec → Out (Bool × IVec)} {dim : Nat} {L : List IVec}
    (h : Runs inc (List.replicate dim 0) L) : mkIter inc dim = .ok (freshIter dim L) := by
  rw [mkIter, ctorLoop_of_runs h]
  simp [freshIter]

end Hermipy
