import Verif.Lemmas.FunctionObject
import Verif.Lemmas.CText
import Mathlib.Tactic.Linarith
import Mathlib.Tactic.FieldSimp
import Mathlib.Algebra.Order.Round
import Mathlib.Data.Rat.Lemmas
import Mathlib.Tactic.Positivity
import Mathlib.Tactic.NormNum
import Mathlib.Data.Rat.Floor

/-! # C89: the class `Function` -/

namespace Hermipy.Props

open Hermipy Hermipy.Spec

variable {E : Type} [SymLaws E]

/-! ## Constructor -/

/-- Whatever the order in which the symbols are visited, the function has the value of the expression with each symbol read as its coordinate. -/
theorem C89_value {order : List Symb} {expr : E} {dirs : Option (List ℤ)} {dim : Option ℕ} {f : PFn E}
    (ho : ∀ s ∈ SymOps.free expr, s ∈ order) (h : pfn_init order expr dirs dim = .ok f) (e : Symb → ℝ) :
    SymOps.value f.sym e = SymOps.value expr (rename e) := by
  have key : ∀ ds, initDirs order expr ds = .ok f → SymOps.value f.sym e = SymOps.value expr (rename e) := by
    intro ds h
    rw [initDirs_ok_value h]
    show SymOps.value (SymOps.expand (convert order expr)) e = _
    rw [SymLaws.value_expand, convert_value_all ho]
  cases dirs with
  | some ds =>
    cases dim with
    | some n => exact absurd h (by rw [pfn_init_both]; simp)
    | none =>
      rw [pfn_init_dirs] at h
      split_ifs at h
      exact key _ h
  | none =>
    cases dim with
    | some n => exact key _ ((pfn_init_dim order expr n) ▸ h)
    | none => exact key _ ((pfn_init_free order expr) ▸ h)

/-- A well formed function: from its converted expression. -/
theorem pfnOk_of {order : List Symb} {expr : E} {ds : List ℤ} (ho : ∀ s ∈ SymOps.free expr, s ∈ order) (hs : ds.Pairwise (· ≤ ·))
    (hr : ∀ d ∈ ds, 0 ≤ d ∧ d < 5) (h : ∀ i, axisSymb i ∈ SymOps.free (convert order expr) → i < 5 → (i : ℤ) ∈ ds) :
    PFnOk (⟨SymOps.expand (convert order expr), ds⟩ : PFn E) := by
  refine ⟨hs, hr, fun s hs i hi => ?_⟩
  have hs : s ∈ SymOps.free (convert order expr) := SymLaws.free_expand _ hs
  obtain ⟨u, _, e⟩ := convert_free_all ho hs
  have : s = axisSymb i := by
    rw [e]
    refine canon_some ?_
    rw [e, direction_canon] at hi
    exact hi
  exact ⟨this, h i (this ▸ hs) (direction_lt hi)⟩

theorem mem_convert {order : List Symb} {expr : E} (ho : ∀ s ∈ SymOps.free expr, s ∈ order) {i : ℕ} (h5 : i < 5)
    (hi : axisSymb i ∈ SymOps.free (convert order expr)) : ∃ s ∈ SymOps.free expr, direction s.1 = some i := by
  obtain ⟨s, hs, e⟩ := convert_free_all ho hi
  exact ⟨s, hs, by rw [← direction_canon, ← e, direction_axisSymb h5]⟩

/-- With directions: if they are sorted, below 5, and contain those of all symbols, the constructor succeeds, keeps them, and the function is
well formed. -/
theorem C89_dirs {order : List Symb} {expr : E} {ds : List ℤ} (ho : ∀ s ∈ SymOps.free expr, s ∈ order) (hs : ds.Pairwise (· ≤ ·))
    (hr : ∀ d ∈ ds, 0 ≤ d ∧ d < 5) (hv : ∀ s ∈ SymOps.free expr, ∀ i, direction s.1 = some i → (i : ℤ) ∈ ds) :
    ∃ f, pfn_init order expr (some ds) none = .ok f ∧ f.dirs = ds ∧ PFnOk f := by
  have h : ∀ i, axisSymb i ∈ SymOps.free (convert order expr) → i < 5 → (i : ℤ) ∈ ds := by
    intro i hi h5
    obtain ⟨s, hs, e⟩ := mem_convert ho h5 hi
    exact hv s hs i e
  refine ⟨_, ?_, rfl, pfnOk_of ho hs hr h⟩
  rw [pfn_init_dirs, if_pos hs, initDirs_ok hr h]

theorem range_dirs (n : ℕ) : ((List.range n).map fun (i : ℕ) => (i : ℤ)).Pairwise (· ≤ ·) := by
  rw [List.pairwise_map]
  exact (List.pairwise_lt_range (n := n)).imp fun {a b} h => by exact_mod_cast h.le

/-- With a dimension: likewise, the directions are those below it. -/
theorem C89_dim {order : List Symb} {expr : E} {dim : ℕ} (ho : ∀ s ∈ SymOps.free expr, s ∈ order) (hd : dim ≤ 5)
    (hv : ∀ s ∈ SymOps.free expr, ∀ i, direction s.1 = some i → i < dim) :
    ∃ f, pfn_init order expr none (some dim) = .ok f ∧ f.dirs = (List.range dim).map (fun (i : ℕ) => (i : ℤ)) ∧ PFnOk f := by
  have h : ∀ i, axisSymb i ∈ SymOps.free (convert order expr) → i < 5 → (i : ℤ) ∈ (List.range dim).map (fun (i : ℕ) => (i : ℤ)) := by
    intro i hi h5
    obtain ⟨s, hs, e⟩ := mem_convert ho h5 hi
    exact List.mem_map.2 ⟨i, List.mem_range.2 (hv s hs i e), rfl⟩
  have hr : ∀ d ∈ (List.range dim).map (fun (i : ℕ) => (i : ℤ)), 0 ≤ d ∧ d < 5 := by
    intro d hd'
    obtain ⟨i, hi, rfl⟩ := List.mem_map.1 hd'
    have := List.mem_range.1 hi
    omega
  refine ⟨_, ?_, rfl, pfnOk_of ho (range_dirs _) hr h⟩
  rw [pfn_init_dim, initDirs_ok hr h]

theorem foldl_max (l : List ℕ) : ∀ m, m ≤ l.foldl (fun m i => max m (i + 1)) m ∧ (∀ i ∈ l, i < l.foldl (fun m i => max m (i + 1)) m) ∧
    (l.foldl (fun m i => max m (i + 1)) m = m ∨ ∃ i ∈ l, l.foldl (fun m i => max m (i + 1)) m = i + 1) := by
  induction l with
  | nil => intro m; simp
  | cons a l ih =>
    intro m
    obtain ⟨h1, h2, h3⟩ := ih (max m (a + 1))
    rw [List.foldl_cons]
    refine ⟨by omega, ?_, ?_⟩
    · intro i hi
      rcases List.mem_cons.1 hi with rfl | hi
      · omega
      · exact h2 i hi
    · rcases h3 with h3 | ⟨i, hi, h3⟩
      · rcases max_choice m (a + 1) with h | h
        · left; rw [h3, h]
        · right; exact ⟨a, by simp, by rw [h3, h]⟩
      · right; exact ⟨i, by simp [hi], h3⟩

/-- With neither, the constructor always succeeds: the directions are those up to a greatest one, which is that of a symbol. -/
theorem C89_free {order : List Symb} {expr : E} (ho : ∀ s ∈ SymOps.free expr, s ∈ order) :
    ∃ f n, pfn_init order expr none none = .ok f ∧ f.dirs = (List.range n).map (fun (i : ℕ) => (i : ℤ)) ∧ PFnOk f ∧
      (n = 0 ∨ ∃ s ∈ SymOps.free expr, direction s.1 = some (n - 1)) := by
  obtain ⟨_, h2, h3⟩ := foldl_max (indicesOf (convert order expr)) 0
  set n := (indicesOf (convert order expr)).foldl (fun m i => max m (i + 1)) 0 with hn
  have hn5 : n = 0 ∨ ∃ s ∈ SymOps.free expr, direction s.1 = some (n - 1) := by
    rcases h3 with h3 | ⟨i, hi, h3⟩
    · exact .inl h3
    · obtain ⟨h5, hi⟩ := mem_indicesOf.1 hi
      obtain ⟨s, hs, e⟩ := mem_convert ho h5 hi
      exact .inr ⟨s, hs, by rw [e, h3]; simp⟩
  have h : ∀ i, axisSymb i ∈ SymOps.free (convert order expr) → i < 5 → (i : ℤ) ∈ (List.range n).map (fun (i : ℕ) => (i : ℤ)) := by
    intro i hi h5
    exact List.mem_map.2 ⟨i, List.mem_range.2 (h2 i (mem_indicesOf.2 ⟨h5, hi⟩)), rfl⟩
  have hr : ∀ d ∈ (List.range n).map (fun (i : ℕ) => (i : ℤ)), 0 ≤ d ∧ d < 5 := by
    intro d hd'
    obtain ⟨i, hi, rfl⟩ := List.mem_map.1 hd'
    have := List.mem_range.1 hi
    rcases hn5 with h0 | ⟨s, _, e⟩
    · omega
    · have := direction_lt e
      omega
  refine ⟨_, n, ?_, rfl, pfnOk_of ho (range_dirs _) hr h, hn5⟩
  rw [pfn_init_free, initDirs_ok hr h]

/-- What is rejected: directions and a dimension; directions that are not sorted; a direction 5 or above; a dimension above 5. -/
theorem C89_rejects (order : List Symb) (expr : E) :
    (∀ ds dim, pfn_init order expr (some ds) (some dim) = .throws) ∧
    (∀ ds, ¬ ds.Pairwise (· ≤ ·) → pfn_init order expr (some ds) none = .throws) ∧
    (∀ ds, (∃ d ∈ ds, d < -5 ∨ 5 ≤ d) → pfn_init order expr (some ds) none = .throws) ∧
    (∀ dim, 5 < dim → pfn_init order expr none (some dim) = .throws) := by
  refine ⟨fun _ _ => rfl, fun ds h => ?_, fun ds h => ?_, fun dim h => ?_⟩
  · rw [pfn_init_dirs, if_neg h]
  · rw [pfn_init_dirs, initDirs_throws h, ite_self]
  · rw [pfn_init_dim]
    exact initDirs_throws ⟨5, List.mem_map.2 ⟨5, List.mem_range.2 h, rfl⟩, .inr le_rfl⟩

/-- An expression whose value depends on a coordinate outside the directions is rejected. -/
theorem C89_rejects_dependence {order : List Symb} {expr : E} {ds : List ℤ} (ho : ∀ s ∈ SymOps.free expr, s ∈ order)
    (hr : ∀ d ∈ ds, 0 ≤ d ∧ d < 5) {i : ℕ} (h5 : i < 5) (hi : (i : ℤ) ∉ ds) {e : Symb → ℝ} {t : ℝ}
    (hd : SymOps.value expr (rename (Function.update e (axisSymb i) t)) ≠ SymOps.value expr (rename e)) :
    pfn_init order expr (some ds) none = .throws := by
  rw [pfn_init_dirs]
  have : axisSymb i ∈ SymOps.free (convert order expr) := by
    by_contra hc
    apply hd
    rw [← convert_value_all ho, ← convert_value_all ho]
    refine SymLaws.value_local _ _ _ fun s hs => ?_
    rw [Function.update_of_ne]
    rintro rfl
    exact hc hs
  rw [initDirs_missing hr this h5 hi, ite_self]

/-! ## Arithmetic -/

/-- The set of free symbols needs no further conversion. -/
theorem rename_free {f : PFn E} (hf : PFnOk f) {s : Symb} (hs : s ∈ SymOps.free f.sym) (e : Symb → ℝ) : rename e s = e s := by
  rw [rename_eq]
  cases h : direction s.1 with
  | none => rw [canon_none h]
  | some i => rw [canon_some h, (hf.vars s hs i h).1]

theorem value_rename {f : PFn E} (hf : PFnOk f) (e : Symb → ℝ) : SymOps.value f.sym (rename e) = SymOps.value f.sym e :=
  SymLaws.value_local _ _ _ fun _ hs => rename_free hf hs e

/-- An operation on functions with the same directions always succeeds, and its value is that of the operation. -/
theorem pfn_op_ok {op : E → E → E} (hop : ∀ a b, SymOps.free (op a b) ⊆ SymOps.free a ∪ SymOps.free b) {order : List Symb} {f g : PFn E}
    (hf : PFnOk f) (hg : PFnOk g) (hd : f.dirs = g.dirs) (ho : ∀ s ∈ SymOps.free (op f.sym g.sym), s ∈ order) :
    ∃ h, pfn_op op order f g = .ok h ∧ h.dirs = f.dirs ∧ PFnOk h ∧ ∀ e, SymOps.value h.sym e = SymOps.value (op f.sym g.sym) e := by
  have hin : ∀ s ∈ SymOps.free (op f.sym g.sym), ∀ i, direction s.1 = some i → s = axisSymb i ∧ (i : ℤ) ∈ f.dirs := by
    intro s hs i hi
    rcases Finset.mem_union.1 (hop _ _ hs) with h | h
    · exact hf.vars s h i hi
    · rw [hd]; exact hg.vars s h i hi
  obtain ⟨h, e1, e2, e3⟩ := C89_dirs ho hf.sorted hf.range fun s hs i hi => (hin s hs i hi).2
  refine ⟨h, ?_, e2, e3, fun e => ?_⟩
  · unfold pfn_op
    rw [if_neg (not_not_intro hd), e1]
  · rw [C89_value ho e1]
    refine SymLaws.value_local _ _ _ fun s hs => ?_
    rw [rename_eq]
    cases h : direction s.1 with
    | none => rw [canon_none h]
    | some i => rw [canon_some h, (hin s hs i h).1]

/-- Sum, product and quotient of functions with the same directions: with any orders of iteration. -/
theorem C89_arithmetic {f g : PFn E} (hf : PFnOk f) (hg : PFnOk g) (hd : f.dirs = g.dirs) {order : List Symb}
    (ho : ∀ s, s ∈ SymOps.free f.sym ∪ SymOps.free g.sym → s ∈ order) :
    (∃ h, pfn_op SymOps.add order f g = .ok h ∧ h.dirs = f.dirs ∧ PFnOk h ∧
      ∀ e, SymOps.value h.sym e = SymOps.value f.sym e + SymOps.value g.sym e) ∧
    (∃ h, pfn_op SymOps.mul order f g = .ok h ∧ h.dirs = f.dirs ∧ PFnOk h ∧
      ∀ e, SymOps.value h.sym e = SymOps.value f.sym e * SymOps.value g.sym e) ∧
    (∃ h, pfn_op SymOps.div order f g = .ok h ∧ h.dirs = f.dirs ∧ PFnOk h ∧
      ∀ e, SymOps.value g.sym e ≠ 0 → SymOps.value h.sym e = SymOps.value f.sym e / SymOps.value g.sym e) := by
  obtain ⟨a, a1, a2, a3, a4⟩ := pfn_op_ok SymLaws.free_add hf hg hd fun s hs => ho s (SymLaws.free_add _ _ hs)
  obtain ⟨m, m1, m2, m3, m4⟩ := pfn_op_ok SymLaws.free_mul hf hg hd fun s hs => ho s (SymLaws.free_mul _ _ hs)
  obtain ⟨q, q1, q2, q3, q4⟩ := pfn_op_ok SymLaws.free_div hf hg hd fun s hs => ho s (SymLaws.free_div _ _ hs)
  exact ⟨⟨a, a1, a2, a3, fun e => by rw [a4, SymLaws.value_add]⟩, ⟨m, m1, m2, m3, fun e => by rw [m4, SymLaws.value_mul]⟩,
    ⟨q, q1, q2, q3, fun e he => by rw [q4, SymLaws.value_div _ _ _ he]⟩⟩

/-- Functions with other directions are rejected, whatever the operation. -/
theorem C89_arithmetic_rejects (op : E → E → E) (order : List Symb) {f g : PFn E} (hd : f.dirs ≠ g.dirs) : pfn_op op order f g = .throws := by
  unfold pfn_op
  rw [if_pos hd]

/-- An expression as other operand is read in the directions of the function. -/
theorem C89_operand {op : E → E → E} (order order' : List Symb) {f : PFn E} {other : E} (hf : PFnOk f)
    (ho : ∀ s ∈ SymOps.free other, s ∈ order') (hv : ∀ s ∈ SymOps.free other, ∀ i, direction s.1 = some i → (i : ℤ) ∈ f.dirs) :
    ∃ g, pfn_op_expr op order order' f other = pfn_op op order f g ∧ g.dirs = f.dirs ∧ PFnOk g ∧
      ∀ e, SymOps.value g.sym e = SymOps.value other (rename e) := by
  obtain ⟨g, e1, e2, e3⟩ := C89_dirs ho hf.sorted hf.range hv
  refine ⟨g, ?_, e2, e3, C89_value ho e1⟩
  unfold pfn_op_expr
  rw [e1, Out.ok_bind]

/-! ## The names of the variables -/

/-- The values of the symbols `x0`, ..., `x4` below `n` are those of `x`, `y`, `z`, `w`, `v`. -/
theorem as_xyz_prefix (a : E) : ∀ n, n ≤ 5 → ∀ e, SymOps.value ((List.range n).foldl (fun a i => SymOps.subs a (xSub i) (xyz i)) a) e =
    SymOps.value a (fun s => match (List.range n).find? fun i => s = axisSymb i with
      | some i => e (xyz i)
      | none => e s) := by
  intro n
  induction n with
  | zero => intro _ e; simp
  | succ n ih =>
    intro hn e
    rw [List.range_succ, List.foldl_append, List.foldl_cons, List.foldl_nil, SymLaws.value_subs, ih (by omega), xSub_eq (by omega)]
    congr 1
    funext s
    rw [List.find?_append]
    have hx : ∀ i, i < 5 → ∀ j, j < 5 → xyz i ≠ axisSymb j := by decide
    cases hk : (List.range n).find? fun i => s = axisSymb i with
    | some i =>
      have hi := List.mem_range.1 (List.mem_of_find?_eq_some hk)
      show Function.update e (axisSymb n) (e (xyz n)) (xyz i) = e (xyz i)
      rw [Function.update_of_ne (hx i (by omega) n (by omega))]
    | none =>
      show Function.update e (axisSymb n) (e (xyz n)) s = _
      by_cases hs : s = axisSymb n
      · subst hs
        simp
      · rw [Function.update_of_ne hs]
        simp [hs]

/-- `as_xyz` has the value of the function where `x`, `y`, `z`, `w`, `v` are the coordinates. -/
theorem C89_as_xyz {f : PFn E} (e : Symb → ℝ) {c : ℕ → ℝ} (hc : ∀ i < 5, e (xyz i) = c i) {e' : Symb → ℝ}
    (h' : ∀ i < 5, e' (axisSymb i) = c i) (hp : ∀ s, (∀ i < 5, s ≠ axisSymb i) → e' s = e s) :
    SymOps.value (as_xyz f) e = SymOps.value f.sym e' := by
  unfold as_xyz
  rw [as_xyz_prefix _ 5 le_rfl]
  congr 1
  funext s
  cases hk : (List.range 5).find? fun i => s = axisSymb i with
  | some i =>
    have hi := List.mem_range.1 (List.mem_of_find?_eq_some hk)
    have hs : s = axisSymb i := by simpa using List.find?_some hk
    show e (xyz i) = e' s
    rw [hs, hc i hi, h' i hi]
  | none =>
    rw [List.find?_eq_none] at hk
    exact (hp s fun i hi h => hk i (List.mem_range.2 hi) (by simpa using h)).symm

theorem as_xyz_free (a : E) : ∀ n, n ≤ 5 → ∀ u, u ∈ SymOps.free ((List.range n).foldl (fun a i => SymOps.subs a (xSub i) (xyz i)) a) →
    u ∈ SymOps.free a ∨ ∃ i < n, u = xyz i ∧ axisSymb i ∈ SymOps.free a := by
  intro n
  induction n with
  | zero => intro _ u hu; exact .inl hu
  | succ n ih =>
    intro hn u hu
    rw [List.range_succ, List.foldl_append, List.foldl_cons, List.foldl_nil] at hu
    rcases SymLaws.free_subs _ _ _ _ hu with ⟨h, _⟩ | ⟨h1, h2⟩
    · rcases ih (by omega) u h with h | ⟨i, hi, h⟩
      · exact .inl h
      · exact .inr ⟨i, by omega, h⟩
    · rw [xSub_eq (by omega)] at h2
      have hx : ∀ i, i < 5 → ∀ j, j < 5 → xyz i ≠ axisSymb j := by decide
      rcases ih (by omega) _ h2 with h | ⟨i, hi, h, _⟩
      · exact .inr ⟨n, by omega, h1, h⟩
      · exact absurd h.symm (hx i (by omega) n (by omega))

/-- Back from `as_xyz`: the constructor, with the directions of the function, gives a function of the same values. -/
theorem C89_round_trip {f : PFn E} (hf : PFnOk f) {order : List Symb} (ho : ∀ s ∈ SymOps.free (as_xyz f), s ∈ order) :
    ∃ g, pfn_init order (as_xyz f) (some f.dirs) none = .ok g ∧ g.dirs = f.dirs ∧ PFnOk g ∧
      ∀ e, SymOps.value g.sym e = SymOps.value f.sym e := by
  obtain ⟨g, e1, e2, e3⟩ := C89_dirs ho hf.sorted hf.range (by
    intro s hs i hi
    rcases as_xyz_free f.sym 5 le_rfl s hs with h | ⟨j, hj, rfl, h⟩
    · exact (hf.vars s h i hi).2
    · rw [direction_xyz hj] at hi
      rw [← Option.some.inj hi]
      exact (hf.vars _ h j (direction_axisSymb hj)).2)
  refine ⟨g, e1, e2, e3, fun e => ?_⟩
  rw [C89_value ho e1, C89_as_xyz (f := f) (rename e) (c := fun i => e (axisSymb i)) (e' := rename e), value_rename hf]
  · intro i hi
    rw [rename_eq, canon_some (direction_xyz hi)]
  · intro i hi
    rw [rename_eq, canon_some (direction_axisSymb hi)]
  · intro s _
    rfl

/-! ## C code -/

/-- In code cut into tokens, if no other word begins with the name of a variable, each variable is replaced by the entry of the array at the
place of its direction, and nothing else changes. -/
theorem C89_ccode {dirs : List ℕ} {ts : List Tok} (h : Lexed ts)
    (hw : ∀ d ∈ dirs, ∀ cs, .word cs ∈ ts → varText d <+: cs → cs = varText d) : ccodeOf dirs (tokText ts) = cText dirs ts := by
  rw [← cTextFrom_zero]
  exact ccode_from dirs 0 ts h hw

/-- Otherwise not: in the directions 0 and 1, the parameter `x10` is not left alone. -/
theorem C89_ccode_false : Lexed [.word ['x', '1', '0']] ∧ cText [0, 1] [.word ['x', '1', '0']] = ['x', '1', '0'] ∧
    ccodeOf [0, 1] (tokText [.word ['x', '1', '0']]) = ['v', '[', '1', ']', '0'] :=
  ⟨⟨by simp, by decide, by simp, trivial⟩, by decide, by decide⟩

/-! ## `sanitize` -/

theorem closest_near {N : ℕ} {c r : ℝ} (hN : 0 < N) (h : ClosestFraction N c r) : |r - c| ≤ 1 / (2 * N) := by
  have hN' : (0 : ℝ) < N := by exact_mod_cast hN
  have hq : ((round (c * N) : ℚ) / (N : ℤ)).den ≤ N := by
    have := Rat.den_dvd (round (c * N)) (N : ℤ)
    exact Nat.le_of_dvd hN (by exact_mod_cast this)
  refine (h.2 _ hq).trans ?_
  push_cast
  have e : (round (c * N) : ℝ) / N - c = -(c * N - round (c * N)) / N := by field_simp; ring
  rw [e, abs_div, abs_neg, abs_of_pos hN']
  have := abs_sub_round (c * N)
  rw [div_le_div_iff₀ hN' (by positivity)]
  nlinarith

theorem fraction_apart {a b : ℚ} (h : a ≠ b) : 1 / ((a.den : ℝ) * b.den) ≤ |(a : ℝ) - b| := by
  have hab : a - b ≠ 0 := sub_ne_zero.2 h
  have ha : (0 : ℝ) < a.den := by exact_mod_cast a.den_pos
  have hb : (0 : ℝ) < b.den := by exact_mod_cast b.den_pos
  have e : (a : ℝ) - b = ((a.num * b.den - b.num * a.den : ℤ) : ℝ) / (a.den * b.den) := by
    rw [Rat.cast_def a, Rat.cast_def b]
    push_cast
    field_simp
  have hz : (a.num * b.den - b.num * a.den : ℤ) ≠ 0 := by
    intro hz
    rw [hz] at e
    simp only [Int.cast_zero, zero_div] at e
    exact h (by exact_mod_cast sub_eq_zero.1 e)
  rw [e, abs_div, abs_of_pos (mul_pos ha hb)]
  gcongr
  exact_mod_cast Int.one_le_abs hz

theorem closest_recovers {N : ℕ} {c r : ℝ} (hN : 0 < N) (h : ClosestFraction N c r) {q : ℚ} (hq : q.den ≤ N)
    (hc : |c - q| < 1 / (2 * q.den * N)) : r = q := by
  obtain ⟨⟨p, rfl, hp⟩, h2⟩ := h
  by_contra hne
  have hpq : p ≠ q := fun k => hne (by rw [k])
  have hN' : (0 : ℝ) < N := by exact_mod_cast hN
  have hp0 : (0 : ℝ) < p.den := by exact_mod_cast p.den_pos
  have hq0 : (0 : ℝ) < q.den := by exact_mod_cast q.den_pos
  have a := fraction_apart hpq
  have b : 1 / ((N : ℝ) * q.den) ≤ 1 / ((p.den : ℝ) * q.den) := by
    gcongr
  have d := h2 q hq
  have t : |(p : ℝ) - q| ≤ |(p : ℝ) - c| + |c - q| := by
    have := abs_add_le ((p : ℝ) - c) (c - q)
    simpa using this
  rw [abs_sub_comm (q : ℝ) c] at d
  have e : 1 / ((N : ℝ) * q.den) = 2 * (1 / (2 * q.den * N)) := by field_simp
  linarith

/-- What `sanitize` does to a `Float`. -/
theorem sanitize_coefficient {N : ℕ} {limit : ℝ → ℝ} (hl : ∀ c, ClosestFraction N c (limit c)) (hN : 0 < N) (hb : 2 * N ≤ 10 ^ 14) (c : ℝ) :
    limit (if |c| < 1 / 10 ^ 14 then 0 else c) = limit c := by
  split_ifs with h
  · have hN' : (0 : ℝ) < N := by exact_mod_cast hN
    have z : (0 : ℚ).den = 1 := rfl
    have hz : (0 : ℚ).den ≤ N := by rw [z]; exact hN
    have a := closest_recovers (q := 0) hN (hl 0) hz (by simp [hN])
    have b := closest_recovers (q := 0) hN (hl c) hz (by
      rw [z]
      refine lt_of_lt_of_le (by simpa using h) ?_
      have : (2 * N : ℝ) ≤ 10 ^ 14 := by exact_mod_cast hb
      rw [← one_div]
      apply one_div_le_one_div_of_le
      · positivity
      · simpa using this)
    rw [a, b]
  · rfl

/-- The threshold changes nothing, for a largest denominator of up to `5 * 10 ^ 13`. -/
theorem C89_sanitize_threshold {N : ℕ} {limit : ℝ → ℝ} (hl : ∀ c, ClosestFraction N c (limit c)) (hN : 0 < N) (hb : 2 * N ≤ 10 ^ 14)
    (terms : List (List SArg)) : sanitize limit terms = terms.map fun args => args.map fun a => match a with
      | .float c => .other (limit c)
      | .other v => .other v := by
  unfold sanitize
  congr 1
  funext args
  congr 1
  funext a
  cases a with
  | float c => simp only [sanitize_coefficient hl hN hb]
  | other v => rfl

theorem rest_none : ∀ args : List SArg, floats args = 0 → ∀ limit : ℝ → ℝ,
    ((args.map fun a => match a with
      | .float c => SArg.other (limit (if |c| < 1 / 10 ^ 14 then 0 else c))
      | .other v => .other v).map SArg.val).prod = restProduct args ∧ (args.map SArg.val).prod = restProduct args
  | [], _, _ => by simp [restProduct]
  | .float c :: args, h, _ => by simp [floats] at h
  | .other v :: args, h, limit => by
    have h : floats args = 0 := by simpa [floats] using h
    obtain ⟨a, b⟩ := rest_none args h limit
    have e : restProduct (.other v :: args) = v * restProduct args := by simp [restProduct]
    rw [e, List.map_cons, List.map_cons, List.prod_cons, a, List.map_cons, List.prod_cons, b]
    exact ⟨rfl, rfl⟩

theorem sanitize_term {N : ℕ} {limit : ℝ → ℝ} (hl : ∀ c, ClosestFraction N c (limit c)) (hN : 0 < N) (hb : 2 * N ≤ 10 ^ 14) :
    ∀ args : List SArg, floats args ≤ 1 →
    |((args.map fun a => match a with
      | .float c => SArg.other (limit (if |c| < 1 / 10 ^ 14 then 0 else c))
      | .other v => .other v).map SArg.val).prod - (args.map SArg.val).prod| ≤ 1 / (2 * N) * (floats args * |restProduct args|)
  | [], _ => by simp [floats]
  | .other v :: args, h => by
    have hf : floats (.other v :: args) = floats args := by simp [floats]
    have e : restProduct (.other v :: args) = v * restProduct args := by simp [restProduct]
    have ih := sanitize_term hl hN hb args (hf ▸ h)
    rw [hf, e, List.map_cons, List.map_cons, List.prod_cons, List.map_cons, List.prod_cons]
    show |v * _ - v * _| ≤ _
    rw [← mul_sub, abs_mul, abs_mul]
    calc |v| * _ ≤ |v| * (1 / (2 * N) * (floats args * |restProduct args|)) := mul_le_mul_of_nonneg_left ih (abs_nonneg v)
      _ = _ := by ring
  | .float c :: args, h => by
    have hf : floats (.float c :: args) = floats args + 1 := by simp [floats]
    have h0 : floats args = 0 := by omega
    have e : restProduct (.float c :: args) = restProduct args := by simp [restProduct]
    obtain ⟨a, b⟩ := rest_none args h0 limit
    rw [hf, h0, e, List.map_cons, List.map_cons, List.prod_cons, List.map_cons, List.prod_cons, a, b]
    show |limit (if |c| < 1 / 10 ^ 14 then 0 else c) * _ - c * _| ≤ _
    rw [sanitize_coefficient hl hN hb, ← sub_mul, abs_mul]
    simp only [Nat.zero_add, Nat.cast_one, one_mul]
    exact mul_le_mul_of_nonneg_right (closest_near hN (hl c)) (abs_nonneg _)

/-- The error of `sanitize`: for each product with a `Float`, at most the product of the other factors over twice the largest denominator. -/
theorem C89_sanitize_error {N : ℕ} {limit : ℝ → ℝ} (hl : ∀ c, ClosestFraction N c (limit c)) (hN : 0 < N) (hb : 2 * N ≤ 10 ^ 14) :
    ∀ terms : List (List SArg), (∀ args ∈ terms, floats args ≤ 1) →
    |sumOfProducts (sanitize limit terms) - sumOfProducts terms| ≤ 1 / (2 * N) * (terms.map fun args => floats args * |restProduct args|).sum
  | [], _ => by simp [sumOfProducts, sanitize]
  | args :: terms, h => by
    have ih := C89_sanitize_error hl hN hb terms fun a ha => h a (by simp [ha])
    have t := sanitize_term hl hN hb args (h args (by simp))
    have e1 : sumOfProducts (args :: terms) = (args.map SArg.val).prod + sumOfProducts terms := by simp [sumOfProducts]
    have e2 : sumOfProducts (sanitize limit (args :: terms)) = ((args.map fun a => match a with
      | .float c => SArg.other (limit (if |c| < 1 / 10 ^ 14 then 0 else c))
      | .other v => .other v).map SArg.val).prod + sumOfProducts (sanitize limit terms) := by
      simp only [sumOfProducts, sanitize, List.map_cons, List.sum_cons]
      rfl
    rw [e1, e2, List.map_cons, List.sum_cons, mul_add]
    refine le_trans (le_of_eq ?_) ((abs_add_le _ _).trans (add_le_add t ih))
    congr 1
    ring

/-- A factor: a `Float` with the fraction it stands for, or something else. -/
abbrev Noisy := (ℝ × ℚ) ⊕ ℝ

/-- `sanitize` finds the fractions: if each `Float` is close to one, the result has the value of the sum with the fractions. -/
theorem C89_sanitize_recovers {N : ℕ} {limit : ℝ → ℝ} (hl : ∀ c, ClosestFraction N c (limit c)) (hN : 0 < N) (hb : 2 * N ≤ 10 ^ 14)
    (terms : List (List Noisy)) (h : ∀ args ∈ terms, ∀ (c : ℝ) (q : ℚ), .inl (c, q) ∈ args →
      q.den ≤ N ∧ |c - (q : ℝ)| < 1 / (2 * (q.den : ℝ) * N)) :
    sumOfProducts (sanitize limit (terms.map fun args => args.map (Sum.elim (fun cq => .float cq.1) .other))) =
      (terms.map fun args => (args.map (Sum.elim (fun cq => (cq.2 : ℝ)) id)).prod).sum := by
  rw [C89_sanitize_threshold hl hN hb]
  unfold sumOfProducts
  rw [List.map_map, List.map_map]
  congr 1
  refine List.map_congr_left fun args ha => ?_
  show ((((args.map _).map _)).map SArg.val).prod = _
  rw [List.map_map, List.map_map]
  congr 1
  refine List.map_congr_left fun x hx => ?_
  rcases x with ⟨c, q⟩ | v
  · obtain ⟨h1, h2⟩ := h args ha c q hx
    exact closest_recovers hN (hl c) h1 h2
  · rfl

/-- Once is enough. -/
theorem C89_sanitize_idempotent (limit : ℝ → ℝ) (terms : List (List SArg)) : sanitize limit (sanitize limit terms) = sanitize limit terms := by
  unfold sanitize
  rw [List.map_map]
  congr 1
  funext args
  show (args.map _).map _ = _
  rw [List.map_map]
  congr 1
  funext a
  cases a <;> rfl

/-- A product vanishes already for a coefficient below half the inverse of the largest denominator, `5 * 10 ^ (-9)` by default, not only below
`10 ^ (-14)`. -/
theorem C89_sanitize_drops {limit : ℝ → ℝ} (hl : ∀ c, ClosestFraction (10 ^ 8) c (limit c)) {c : ℝ} (hc : |c| < 5 / 10 ^ 9) (v : ℝ) :
    sumOfProducts (sanitize limit [[.float c, .other v]]) = 0 := by
  rw [C89_sanitize_threshold hl (by norm_num) (by norm_num)]
  have := closest_recovers (q := 0) (by norm_num) (hl c) (by norm_num) (by
    have : |c - ((0 : ℚ) : ℝ)| = |c| := by simp
    rw [this]
    refine hc.trans_le ?_
    norm_num)
  simp [sumOfProducts, SArg.val, this]

/-! ## Examples -/

/-- Expressions as functions of finitely many symbols. -/
structure FinExpr where
  free : Finset Symb
  value : (Symb → ℝ) → ℝ
  localized : ∀ e e', (∀ s ∈ free, e s = e' s) → value e = value e'

/-- They satisfy the assumptions on sympy. -/
noncomputable instance : SymLaws FinExpr where
  free a := a.free
  value a := a.value
  subs a s t := ⟨if s ∈ a.free then insert t (a.free.erase s) else a.free, fun e => a.value (Function.update e s (e t)), by
    intro e e' h
    apply a.localized
    intro u hu
    by_cases hs : u = s
    · subst hs
      rw [if_pos hu] at h
      simpa using h t (by simp)
    · rw [Function.update_of_ne hs, Function.update_of_ne hs]
      apply h
      split_ifs
      · simp [hs, hu]
      · exact hu⟩
  expand a := a
  add a b := ⟨a.free ∪ b.free, fun e => a.value e + b.value e, fun e e' h => by
    rw [a.localized e e' fun s hs => h s (by simp [hs]), b.localized e e' fun s hs => h s (by simp [hs])]⟩
  mul a b := ⟨a.free ∪ b.free, fun e => a.value e * b.value e, fun e e' h => by
    rw [a.localized e e' fun s hs => h s (by simp [hs]), b.localized e e' fun s hs => h s (by simp [hs])]⟩
  div a b := ⟨a.free ∪ b.free, fun e => a.value e / b.value e, fun e e' h => by
    rw [a.localized e e' fun s hs => h s (by simp [hs]), b.localized e e' fun s hs => h s (by simp [hs])]⟩
  value_local a := a.localized
  value_subs _ _ _ _ := rfl
  free_subs a s t u h := by
    have h : u ∈ (if s ∈ a.free then insert t (a.free.erase s) else a.free) := h
    split_ifs at h with hs
    · rcases Finset.mem_insert.1 h with h | h
      · exact .inr ⟨h, hs⟩
      · exact .inl ⟨Finset.mem_of_mem_erase h, Finset.ne_of_mem_erase h⟩
    · exact .inl ⟨h, fun k => hs (k ▸ h)⟩
  value_expand _ _ := rfl
  free_expand _ := subset_rfl
  value_add _ _ _ := rfl
  free_add _ _ := subset_rfl
  value_mul _ _ _ := rfl
  free_mul _ _ := subset_rfl
  value_div _ _ _ _ := rfl
  free_div _ _ := subset_rfl

/-- A symbol as expression. -/
def symExpr (s : Symb) : FinExpr := ⟨{s}, fun e => e s, fun _ _ h => h s (by simp)⟩

/-- `x * y + a`, with a symbol `y` without assumptions. -/
noncomputable def exampleExpr : FinExpr := SymOps.add (SymOps.mul (symExpr ("x", 0)) (symExpr ("y", 1))) (symExpr ("a", 0))

/-- Its free symbols, in some order. -/
def exampleOrder : List Symb := [("y", 1), ("a", 0), ("x", 0)]

theorem example_free : (SymOps.free exampleExpr) = ({("x", 0)} ∪ {("y", 1)}) ∪ {("a", 0)} := rfl

theorem example_order : ∀ s ∈ SymOps.free exampleExpr, s ∈ exampleOrder := by
  rw [example_free]
  intro s hs
  simp only [Finset.mem_union, Finset.mem_singleton] at hs
  rcases hs with (rfl | rfl) | rfl <;> simp [exampleOrder]

theorem example_vars : ∀ s ∈ SymOps.free exampleExpr, ∀ i, direction s.1 = some i → i = 0 ∨ i = 1 := by
  rw [example_free]
  intro s hs i hi
  simp only [Finset.mem_union, Finset.mem_singleton] at hs
  rcases hs with (rfl | rfl) | rfl
  · exact .inl (Option.some.inj hi).symm
  · exact .inr (Option.some.inj hi).symm
  · have : direction "a" = none := by decide
    exact absurd (this.symm.trans hi) (by simp)

/-- `Function(x * y + a, dirs=[0, 1, 3])` is `x0 * x1 + a`. -/
example : ∃ f, pfn_init exampleOrder exampleExpr (some [0, 1, 3]) none = .ok f ∧ f.dirs = [0, 1, 3] ∧ PFnOk f ∧
    ∀ e, SymOps.value f.sym e = e ("x0", 0) * e ("x1", 0) + e ("a", 0) := by
  obtain ⟨f, h1, h2, h3⟩ := C89_dirs (ds := [0, 1, 3]) example_order (by decide) (by decide) (by
    intro s hs i hi
    rcases example_vars s hs i hi with rfl | rfl <;> simp)
  exact ⟨f, h1, h2, h3, fun e => C89_value example_order h1 e⟩

/-- `Function(x * y + a, dirs=[0, 2])` is rejected, for `y`. -/
example : pfn_init exampleOrder exampleExpr (some [0, 2]) none = .throws := by
  refine C89_rejects_dependence example_order (by decide) (i := 1) (by norm_num) (by decide) (e := fun _ => 1) (t := 2) ?_
  show (Function.update (fun _ => (1 : ℝ)) (axisSymb 1) 2) (axisSymb 0) * (Function.update (fun _ => (1 : ℝ)) (axisSymb 1) 2) (axisSymb 1) +
    (Function.update (fun _ => (1 : ℝ)) (axisSymb 1) 2) ("a", 0) ≠ 1 * 1 + 1
  rw [Function.update_self, Function.update_of_ne (by decide), Function.update_of_ne (by decide)]
  norm_num

/-- The directions and the dimension are ignored when the argument is a `Function`: for a function `f` of `x`, the result of `Function(f, dirs=[0, 1])` has the
direction 0 only, and contradictory arguments are accepted; with the expression of `f` instead of `f`, the directions are set and the
contradictory arguments are rejected. -/
theorem C89_copy_false : ∃ f : PFn FinExpr, pfn_new [("x", 0)] (.expr (symExpr ("x", 0))) (some [0]) none = .ok f ∧ PFnOk f ∧ f.dirs = [0] ∧
    (∀ order, pfn_new order (.function f) (some [0, 1]) none = .ok f ∧ pfn_new order (.function f) (some [1]) (some 1) = .ok f ∧
      pfn_new order (.expr f.sym) (some [1]) (some 1) = .throws) ∧
    ∃ g : PFn FinExpr, pfn_new [("x", 0)] (.expr (symExpr ("x", 0))) (some [0, 1]) none = .ok g ∧ g.dirs = [0, 1] := by
  have ho : ∀ s ∈ SymOps.free (symExpr ("x", 0)), s ∈ [(("x", 0) : Symb)] := by
    intro s hs
    exact List.mem_singleton.2 (Finset.mem_singleton.1 hs)
  have hv : ∀ s ∈ SymOps.free (symExpr ("x", 0)), ∀ i, direction s.1 = some i → i = 0 := by
    intro s hs i e
    rw [Finset.mem_singleton.1 hs] at e
    exact (Option.some.inj e).symm
  obtain ⟨f, e, hd, hf⟩ := C89_dirs (ds := [0]) ho (by simp) (by simp) (fun s hs i h => by simp [hv s hs i h])
  obtain ⟨g, e2, hd2, -⟩ := C89_dirs (ds := [0, 1]) ho (by simp) (by simp) (fun s hs i h => by simp [hv s hs i h])
  exact ⟨f, e, hf, hd, fun order => ⟨rfl, rfl, (C89_rejects order f.sym).1 [1] 1⟩, g, e2, hd2⟩

/-- Directions may be negative: `Function(v, dirs=[-1])` is accepted. The direction is not one of 0 to 4, and the variable is `x4`. -/
theorem C89_negative_accepted : ∃ f : PFn FinExpr, pfn_init [("v", 0)] (symExpr ("v", 0)) (some [-1]) none = .ok f ∧ f.dirs = [-1] ∧
    ¬ PFnOk f ∧ ∀ e, SymOps.value f.sym e = e (axisSymb 4) := by
  have h : pfn_init [("v", 0)] (symExpr ("v", 0)) (some [-1]) none = .ok ⟨SymOps.expand (convert [("v", 0)] (symExpr ("v", 0))), [-1]⟩ := by
    rw [pfn_init_dirs, if_pos (by decide)]
    unfold initDirs
    rw [show ([-1] : List ℤ).mapM xSubAt = .ok [xSub 4] from rfl, Out.ok_bind, if_pos]
    intro i hi
    obtain ⟨h5, hi⟩ := mem_indicesOf.1 hi
    obtain ⟨s, hs, e⟩ := mem_convert (expr := symExpr ("v", 0)) (by intro s hs; exact List.mem_singleton.2 (Finset.mem_singleton.1 hs)) h5 hi
    have hs : s = ("v", 0) := Finset.mem_singleton.1 hs
    rw [hs] at e
    have : i = 4 := (Option.some.inj e).symm
    simp [this]
  refine ⟨_, h, rfl, fun k => ?_, fun e => C89_value (by intro s hs; exact List.mem_singleton.2 (Finset.mem_singleton.1 hs)) h e⟩
  exact absurd (k.range (-1) (by simp)).1 (by norm_num)

/-- A direction may be given twice. -/
theorem C89_repeated_accepted : ∃ f : PFn FinExpr, pfn_init [("x", 0)] (symExpr ("x", 0)) (some [0, 0]) none = .ok f ∧ f.dirs = [0, 0] := by
  obtain ⟨f, h1, h2, _⟩ := C89_dirs (order := [("x", 0)]) (expr := symExpr ("x", 0)) (ds := [0, 0]) (by intro s hs; exact List.mem_singleton.2 (Finset.mem_singleton.1 hs)) (by decide)
    (by decide) (by
      intro s hs i hi
      have hs : s = ("x", 0) := Finset.mem_singleton.1 hs
      rw [hs] at hi
      rw [← Option.some.inj hi]
      simp)
  exact ⟨f, h1, h2⟩

/-- `sin(x1)*x3`, in the directions 1 and 3. -/
example : ccodeOf [1, 3] ['s', 'i', 'n', '(', 'x', '1', ')', '*', 'x', '3'] = ['s', 'i', 'n', '(', 'v', '[', '0', ']', ')', '*', 'v', '[', '1', ']'] := by
  have := C89_ccode (dirs := [1, 3]) (ts := [.word ['s', 'i', 'n'], .sep '(', .word ['x', '1'], .sep ')', .sep '*', .word ['x', '3']])
    (by simp [Lexed]; decide) (by
      intro d hd cs hcs
      simp only [List.mem_cons, Tok.word.injEq, reduceCtorEq, false_or, List.not_mem_nil, or_false] at hcs hd
      rcases hcs with rfl | rfl | rfl <;> rcases hd with rfl | rfl <;> decide)
  exact this

/-- Products, and the way back from `as_xyz`. -/
example : ∃ (f g h : PFn FinExpr) (o o' : List Symb), pfn_op SymOps.mul o f f = .ok g ∧ pfn_init o' (as_xyz g) (some g.dirs) none = .ok h ∧
    ∀ e, SymOps.value h.sym e = (e ("x0", 0) * e ("x1", 0) + e ("a", 0)) * (e ("x0", 0) * e ("x1", 0) + e ("a", 0)) := by
  obtain ⟨f, h1, _, h3⟩ := C89_dirs (ds := [0, 1]) example_order (by decide) (by decide) (by
    intro s hs i hi
    rcases example_vars s hs i hi with rfl | rfl <;> simp)
  obtain ⟨_, ⟨g, g1, _, g3, g4⟩, _⟩ := C89_arithmetic h3 h3 rfl (order := (SymOps.free f.sym ∪ SymOps.free f.sym).toList) (fun s hs => by simpa using hs)
  obtain ⟨h, k1, _, _, k4⟩ := C89_round_trip g3 (order := (SymOps.free (as_xyz g)).toList) (fun s hs => by simpa using hs)
  refine ⟨f, g, h, _, _, g1, k1, fun e => ?_⟩
  rw [k4, g4, C89_value example_order h1]
  rfl

/-- There are closest fractions. -/
theorem closest_exists {N : ℕ} (hN : 0 < N) (c : ℝ) : ∃ r, ClosestFraction N c r := by
  obtain ⟨k, hk, hmin⟩ := Finset.exists_min_image (Finset.Icc 1 N) (fun k : ℕ => |(round (c * k) : ℝ) / k - c|) ⟨1, by simp; omega⟩
  obtain ⟨hk1, hkN⟩ := Finset.mem_Icc.1 hk
  refine ⟨(round (c * k) : ℝ) / k, ⟨(round (c * k) : ℚ) / (k : ℤ), by push_cast; rfl, ?_⟩, fun q hq => ?_⟩
  · have := Rat.den_dvd (round (c * k)) (k : ℤ)
    exact (Nat.le_of_dvd (by omega) (by exact_mod_cast this)).trans hkN
  · refine (hmin q.den (Finset.mem_Icc.2 ⟨q.den_pos, hq⟩)).trans ?_
    have hd : (0 : ℝ) < q.den := by exact_mod_cast q.den_pos
    have e1 : (round (c * q.den) : ℝ) / q.den - c = -(c * q.den - round (c * q.den)) / q.den := by field_simp; ring
    have e2 : (q : ℝ) - c = -(c * q.den - q.num) / q.den := by
      rw [Rat.cast_def q]
      field_simp
      ring
    rw [e1, e2, abs_div, abs_div, abs_neg, abs_neg, abs_of_pos hd]
    exact div_le_div_of_nonneg_right (round_le (c * q.den) q.num) hd.le

/-- `0.33333 * v` is `v / 3`, with denominators up to 1000. -/
example (v : ℝ) : ∃ limit, (∀ c, ClosestFraction 1000 c (limit c)) ∧ sumOfProducts (sanitize limit [[.float 0.33333, .other v]]) = 1 / 3 * v := by
  choose limit hl using fun c => closest_exists (N := 1000) (by norm_num) c
  refine ⟨limit, hl, ?_⟩
  have h := C89_sanitize_recovers hl (by norm_num) (by norm_num) [[.inl (0.33333, 1 / 3), .inr v]] (by
    intro args ha c q hm
    rw [List.mem_singleton] at ha
    subst ha
    simp only [List.mem_cons, Sum.inl.injEq, Prod.mk.injEq, reduceCtorEq, List.not_mem_nil, or_false] at hm
    obtain ⟨rfl, rfl⟩ := hm
    have hd : ((1 : ℚ) / 3).den = 3 := by norm_num
    rw [hd]
    refine ⟨by norm_num, ?_⟩
    rw [abs_lt]
    constructor <;> norm_num)
  simpa using h

end Hermipy.Props
