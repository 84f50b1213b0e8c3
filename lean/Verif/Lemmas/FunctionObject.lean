import Verif.Spec.FunctionObject
import Verif.Lemmas.Converters
import Verif.Lemmas.Position
import Mathlib.Tactic.IntervalCases

/-! # Conversion of the symbols, constructor -/

namespace Hermipy

open Hermipy.Spec

theorem xSub_eq {i : ℕ} (h : i < 5) : xSub i = axisSymb i := by
  interval_cases i <;> rfl

theorem conv_eq (n : String) : conv n = direction n := by
  have e : List.range 5 = [0, 1, 2, 3, 4] := rfl
  have h0 : (xSub 0).1 = "x0" := rfl
  have h1 : (xSub 1).1 = "x1" := rfl
  have h2 : (xSub 2).1 = "x2" := rfl
  have h3 : (xSub 3).1 = "x3" := rfl
  have h4 : (xSub 4).1 = "x4" := rfl
  have k0 : (xyz 0).1 = "x" := rfl
  have k1 : (xyz 1).1 = "y" := rfl
  have k2 : (xyz 2).1 = "z" := rfl
  have k3 : (xyz 3).1 = "w" := rfl
  have k4 : (xyz 4).1 = "v" := rfl
  unfold conv direction
  rw [e]
  simp only [List.find?_cons, h0, h1, h2, h3, h4, k0, k1, k2, k3, k4, List.find?_nil]
  by_cases a0 : n = "x" ∨ n = "x0"
  · simp [a0]
  by_cases a1 : n = "y" ∨ n = "x1"
  · simp [a0, a1]
  by_cases a2 : n = "z" ∨ n = "x2"
  · simp [a0, a1, a2]
  by_cases a3 : n = "w" ∨ n = "x3"
  · simp [a0, a1, a2, a3]
  by_cases a4 : n = "v" ∨ n = "x4"
  · simp [a0, a1, a2, a3, a4]
  · simp [a0, a1, a2, a3, a4]

theorem direction_lt {n : String} {i : ℕ} (h : direction n = some i) : i < 5 := by
  unfold direction at h
  split_ifs at h <;> simp_all <;> omega

theorem direction_axisSymb {i : ℕ} (h : i < 5) : direction (axisSymb i).1 = some i := by
  interval_cases i <;> rfl

theorem direction_xyz {i : ℕ} (h : i < 5) : direction (xyz i).1 = some i := by
  interval_cases i <;> rfl

theorem axisSymb_inj {i j : ℕ} (hi : i < 5) (hj : j < 5) (h : axisSymb i = axisSymb j) : i = j := by
  have a := direction_axisSymb hi
  rw [h, direction_axisSymb hj] at a
  exact (Option.some.inj a).symm

/-- What the symbol is replaced by. -/
def canon (s : Symb) : Symb := match direction s.1 with
  | some i => axisSymb i
  | none => s

theorem rename_eq (e : Symb → ℝ) (s : Symb) : rename e s = e (canon s) := by
  unfold rename canon
  cases direction s.1 <;> rfl

theorem canon_some {s : Symb} {i : ℕ} (h : direction s.1 = some i) : canon s = axisSymb i := by
  unfold canon
  rw [h]

theorem canon_none {s : Symb} (h : direction s.1 = none) : canon s = s := by
  unfold canon
  rw [h]

theorem canon_canon (s : Symb) : canon (canon s) = canon s := by
  cases h : direction s.1 with
  | none => rw [canon_none h, canon_none h]
  | some i =>
    rw [canon_some h]
    exact canon_some (direction_axisSymb (direction_lt h))

theorem direction_canon (s : Symb) : direction (canon s).1 = direction s.1 := by
  cases h : direction s.1 with
  | none => rw [canon_none h, h]
  | some i => rw [canon_some h, direction_axisSymb (direction_lt h)]

theorem rename_update (e : Symb → ℝ) (s : Symb) : rename (Function.update e s (rename e s)) = rename e := by
  funext u
  rw [rename_eq, rename_eq, rename_eq]
  by_cases h : canon u = s
  · rw [h, Function.update_self, ← h, canon_canon]
  · rw [Function.update_of_ne h]

variable {E : Type} [SymLaws E]

theorem convert_append (l : List Symb) (s : Symb) (a : E) : convert (l ++ [s]) a = convert [s] (convert l a) := by
  unfold convert
  rw [List.foldl_append]

theorem convert_one_value (s : Symb) (a : E) (e : Symb → ℝ) :
    SymOps.value (convert [s] a) e = SymOps.value a (Function.update e s (rename e s)) := by
  show SymOps.value (match conv s.1 with
    | some i => SymOps.subs a s (xSub i)
    | none => a) e = _
  rw [conv_eq, rename_eq]
  cases h : direction s.1 with
  | none => rw [canon_none h, Function.update_eq_self]
  | some i =>
    rw [canon_some h]
    show SymOps.value (SymOps.subs a s (xSub i)) e = _
    rw [SymLaws.value_subs, xSub_eq (direction_lt h)]

theorem convert_value (order : List Symb) (a : E) : ∀ e : Symb → ℝ,
    SymOps.value (convert order a) e = SymOps.value a (fun s => if s ∈ order then rename e s else e s) := by
  induction order using List.reverseRecOn with
  | nil => intro e; simp [convert]
  | append_singleton l s ih =>
    intro e
    rw [convert_append, convert_one_value, ih, rename_update]
    congr 1
    funext u
    by_cases hu : u ∈ l
    · simp [hu]
    · by_cases hs : u = s
      · subst hs
        simp [hu]
      · simp [hu, hs]

theorem convert_value_all {order : List Symb} {a : E} (h : ∀ s ∈ SymOps.free a, s ∈ order) (e : Symb → ℝ) :
    SymOps.value (convert order a) e = SymOps.value a (rename e) := by
  rw [convert_value]
  exact SymLaws.value_local _ _ _ fun s hs => by simp [h s hs]

theorem convert_free (order : List Symb) (a : E) : ∀ u, u ∈ SymOps.free (convert order a) →
    (u ∈ SymOps.free a ∧ (u ∉ order ∨ canon u = u)) ∨ ∃ s ∈ SymOps.free a, u = canon s := by
  induction order using List.reverseRecOn with
  | nil => intro u hu; exact .inl ⟨hu, .inl (by simp)⟩
  | append_singleton l s ih =>
    intro u hu
    rw [convert_append] at hu
    have hu : u ∈ SymOps.free (match conv s.1 with
      | some i => SymOps.subs (convert l a) s (xSub i)
      | none => convert l a) := hu
    rw [conv_eq] at hu
    cases h : direction s.1 with
    | none =>
      rw [h] at hu
      rcases ih u hu with ⟨h1, h2⟩ | h1
      · refine .inl ⟨h1, ?_⟩
        by_cases hs : u = s
        · right; rw [hs]; exact canon_none h
        · rcases h2 with h2 | h2
          · left; simp [h2, hs]
          · exact .inr h2
      · exact .inr h1
    | some i =>
      rw [h] at hu
      have hu : u ∈ SymOps.free (SymOps.subs (convert l a) s (xSub i)) := hu
      rcases SymLaws.free_subs _ _ _ _ hu with ⟨h1, h2⟩ | ⟨h1, h2⟩
      · rcases ih u h1 with ⟨h3, h4⟩ | h3
        · refine .inl ⟨h3, ?_⟩
          rcases h4 with h4 | h4
          · left; simp [h4, h2]
          · exact .inr h4
        · exact .inr h3
      · rw [xSub_eq (direction_lt h), ← canon_some h] at h1
        right
        rcases ih s h2 with ⟨h3, _⟩ | ⟨s', h3, h4⟩
        · exact ⟨s, h3, h1⟩
        · exact ⟨s', h3, by rw [h1, h4, canon_canon]⟩

theorem convert_free_all {order : List Symb} {a : E} (h : ∀ s ∈ SymOps.free a, s ∈ order) {u : Symb}
    (hu : u ∈ SymOps.free (convert order a)) : ∃ s ∈ SymOps.free a, u = canon s := by
  rcases convert_free order a u hu with ⟨h1, h2⟩ | h1
  · rcases h2 with h2 | h2
    · exact absurd (h u h1) h2
    · exact ⟨u, h1, h2.symm⟩
  · exact h1

/-- The variables of the converted expression. -/
def indicesOf (a : E) : List ℕ := (List.range 5).filter fun i => xSub i ∈ SymOps.free a

theorem mem_indicesOf {a : E} {i : ℕ} : i ∈ indicesOf a ↔ i < 5 ∧ axisSymb i ∈ SymOps.free a := by
  unfold indicesOf
  rw [List.mem_filter, List.mem_range]
  constructor
  · rintro ⟨h, k⟩
    rw [xSub_eq h] at k
    exact ⟨h, by simpa using k⟩
  · rintro ⟨h, k⟩
    rw [xSub_eq h]
    exact ⟨h, by simpa using k⟩

theorem xSubAt_ok {d : ℤ} (h : 0 ≤ d ∧ d < 5) : xSubAt d = .ok (axisSymb d.toNat) := by
  unfold xSubAt
  rw [if_pos h, xSub_eq (by omega)]

theorem xSubAt_cases (d : ℤ) : (∃ y, xSubAt d = .ok y) ∨ xSubAt d = .throws := by
  unfold xSubAt
  split_ifs
  · exact .inl ⟨_, rfl⟩
  · exact .inl ⟨_, rfl⟩
  · exact .inr rfl

/-- What follows the choice of the directions. -/
def initDirs (order : List Symb) (expr : E) (ds : List ℤ) : Out (PFn E) := do
  let symbols ← ds.mapM xSubAt
  if ∀ i ∈ indicesOf (convert order expr), xSub i ∈ symbols then .ok ⟨SymOps.expand (convert order expr), ds⟩ else .throws

theorem pfn_init_dirs (order : List Symb) (expr : E) (ds : List ℤ) :
    pfn_init order expr (some ds) none = if ds.Pairwise (· ≤ ·) then initDirs order expr ds else .throws := by
  unfold pfn_init initDirs indicesOf
  by_cases h : ds.Pairwise (· ≤ ·)
  · simp [h]
  · simp [h]

theorem pfn_init_both (order : List Symb) (expr : E) (ds : List ℤ) (dim : ℕ) : pfn_init order expr (some ds) (some dim) = .throws := rfl

theorem pfn_init_dim (order : List Symb) (expr : E) (dim : ℕ) :
    pfn_init order expr none (some dim) = initDirs order expr ((List.range dim).map fun (i : ℕ) => (i : ℤ)) := rfl

theorem pfn_init_free (order : List Symb) (expr : E) :
    pfn_init order expr none none = initDirs order expr ((List.range ((indicesOf (convert order expr)).foldl
      (fun m i => max m (i + 1)) 0)).map fun (i : ℕ) => (i : ℤ)) := rfl

theorem initDirs_ok {order : List Symb} {expr : E} {ds : List ℤ} (hr : ∀ d ∈ ds, 0 ≤ d ∧ d < 5)
    (h : ∀ i, axisSymb i ∈ SymOps.free (convert order expr) → i < 5 → (i : ℤ) ∈ ds) :
    initDirs order expr ds = .ok ⟨SymOps.expand (convert order expr), ds⟩ := by
  unfold initDirs
  rw [mapM_ok (g := fun d => axisSymb d.toNat) fun d hd => xSubAt_ok (hr d hd), Out.ok_bind, if_pos]
  intro i hi
  obtain ⟨h5, hi⟩ := mem_indicesOf.1 hi
  rw [xSub_eq h5, List.mem_map]
  exact ⟨i, h i hi h5, by simp⟩

theorem initDirs_missing {order : List Symb} {expr : E} {ds : List ℤ} (hr : ∀ d ∈ ds, 0 ≤ d ∧ d < 5) {i : ℕ}
    (h : axisSymb i ∈ SymOps.free (convert order expr)) (h5 : i < 5) (hi : (i : ℤ) ∉ ds) : initDirs order expr ds = .throws := by
  unfold initDirs
  rw [mapM_ok (g := fun d => axisSymb d.toNat) fun d hd => xSubAt_ok (hr d hd), Out.ok_bind, if_neg]
  intro k
  have := k i (mem_indicesOf.2 ⟨h5, h⟩)
  rw [xSub_eq h5, List.mem_map] at this
  obtain ⟨d, hd, e⟩ := this
  have := axisSymb_inj (by have := hr d hd; omega) h5 e
  have hd' := hr d hd
  have e2 : d = (i : ℤ) := by omega
  exact hi (e2 ▸ hd)

theorem initDirs_throws {order : List Symb} {expr : E} {ds : List ℤ} (h : ∃ d ∈ ds, d < -5 ∨ 5 ≤ d) : initDirs order expr ds = .throws := by
  unfold initDirs
  rw [mapM_throws (fun d _ => xSubAt_cases d)]
  · rfl
  · obtain ⟨d, hd, h⟩ := h
    refine ⟨d, hd, ?_⟩
    unfold xSubAt
    rw [if_neg (by omega), if_neg (by omega)]

theorem initDirs_ok_value {order : List Symb} {expr : E} {ds : List ℤ} {f : PFn E} (h : initDirs order expr ds = .ok f) :
    f = ⟨SymOps.expand (convert order expr), ds⟩ := by
  unfold initDirs at h
  cases hm : ds.mapM xSubAt with
  | ok l =>
    rw [hm, Out.ok_bind] at h
    split_ifs at h
    exact (Out.ok.inj h).symm
  | stop r => rw [hm] at h; exact absurd h (by simp)
  | diverge => rw [hm] at h; exact absurd h (by intro k; cases k)

end Hermipy
