import Verif.Lemmas.Core
import Verif.Lemmas.VarfTensorize
import Verif.Model.VarfObject
import Verif.Props.Blocks
import Verif.Props.IndexSets
import Verif.Props.Inner

/-!
# Property C84: the Python functions pass their arguments on unchanged

`core.py` converts lists, arrays and sparse matrices, chooses an overload of the C++ function and converts the result.
-/

namespace Hermipy.Props

open Hermipy.Spec Hermipy.Core

/-! ## Conversions of lists and arrays -/

/-- C84. Conversion of lists and arrays keeps the numbers, and the depth decides what becomes of them. -/
theorem C84_to_cpp_array (a : Nest) :
    (∀ v, to_cpp_array a = .ok (.vec v) ↔ v ≠ [] ∧ a = .seq (v.map .num)) ∧
    (∀ m, to_cpp_array a = .ok (.mat m) ↔ m.getD 0 [] ≠ [] ∧ a = .seq (m.map fun r => .seq (r.map .num))) ∧
    (∀ c, to_cpp_array a = .ok (.cube c) ↔ c.getD 0 [] ≠ [] ∧ a = .seq (c.map fun m => .seq (m.map fun r => .seq (r.map .num)))) := by
  refine ⟨fun v => ⟨fun h => ?_, fun h => ?_⟩, fun m => ⟨fun h => ?_, fun h => ?_⟩, fun c => ⟨fun h => ?_, fun h => ?_⟩⟩
  · match a, h with
    | .num x, h => simp [to_cpp_array] at h
    | .other, h => simp [to_cpp_array] at h
    | .seq l, h =>
      rcases to_cpp_array_inv h with ⟨w, h1, h2, h3⟩ | ⟨w, h1, h2, h3⟩ | ⟨w, h1, h2, h3⟩
      · obtain rfl : v = w := by simpa using h3
        exact ⟨h1, h2⟩
      · cases h3
      · cases h3
  · obtain ⟨h1, rfl⟩ := h
    exact to_cpp_vec h1
  · match a, h with
    | .num x, h => simp [to_cpp_array] at h
    | .other, h => simp [to_cpp_array] at h
    | .seq l, h =>
      rcases to_cpp_array_inv h with ⟨w, h1, h2, h3⟩ | ⟨w, h1, h2, h3⟩ | ⟨w, h1, h2, h3⟩
      · cases h3
      · obtain rfl : m = w := by simpa using h3
        exact ⟨h1, h2⟩
      · cases h3
  · obtain ⟨h1, rfl⟩ := h
    exact to_cpp_mat h1
  · match a, h with
    | .num x, h => simp [to_cpp_array] at h
    | .other, h => simp [to_cpp_array] at h
    | .seq l, h =>
      rcases to_cpp_array_inv h with ⟨w, h1, h2, h3⟩ | ⟨w, h1, h2, h3⟩ | ⟨w, h1, h2, h3⟩
      · cases h3
      · cases h3
      · obtain rfl : c = w := by simpa using h3
        exact ⟨h1, h2⟩
  · obtain ⟨h1, rfl⟩ := h
    exact to_cpp_cube h1

/-- C84. Whatever else is passed raises an exception: in particular empty lists, lists whose first row is empty, lists of mixed depth and
arrays with four axes. Nothing is undefined, and nothing terminates the process. -/
theorem C84_to_cpp_array_rejects (l : List Nest) (h1 : ∀ v : List ℝ, v ≠ [] → l ≠ v.map .num)
    (h2 : ∀ m : List (List ℝ), m.getD 0 [] ≠ [] → l ≠ m.map fun r => .seq (r.map .num))
    (h3 : ∀ c : List (List (List ℝ)), c.getD 0 [] ≠ [] → l ≠ c.map fun m => .seq (m.map fun r => .seq (r.map .num))) :
    to_cpp_array (.seq l) = .throws := by
  rcases to_cpp_array_plain (.seq l) with ⟨r, h⟩ | h
  · rcases to_cpp_array_inv h with ⟨w, k1, k2, -⟩ | ⟨w, k1, k2, -⟩ | ⟨w, k1, k2, -⟩
    · exact absurd (Nest.seq.inj k2) (h1 w k1)
    · exact absurd (Nest.seq.inj k2) (h2 w k1)
    · exact absurd (Nest.seq.inj k2) (h3 w k1)
  · exact h

/-- `[]`, `[[], [1]]` and `[1, [2]]` are rejected. -/
theorem C84_empty_rejected : to_cpp_array (.seq []) = .throws ∧ to_cpp_array (.seq [.seq [], .seq [.num 1]]) = .throws ∧
    to_cpp_array (.seq [.num 1, .seq [.num 2]]) = .throws := ⟨rfl, rfl, rfl⟩

/-! ## Names of index sets -/

/-- C84. The functions on index sets are those of the set with the given name. -/
theorem C84_iterators (s : IndexSet) (dim n : ℕ) :
    iterator_get_degree dim n (setName s) = s.s_get_degree dim n ∧ iterator_size dim n (setName s) = s.s_size dim n ∧
      iterator_list_indices dim n (setName s) = s.s_list dim n :=
  ⟨lookup_name s _, lookup_name s _, lookup_name s _⟩

/-- C84, partial: `iterator_index` finds the position in the list. Missing: the sets other than the triangle and the cube, for which it raises,
see `C84_iterator_index_false`, and the zero multi-index of the cube, see `C09_zero_undefined`. -/
theorem C84_iterator_index_partial (s : IndexSet) (hs : s = .triangle ∨ s = .cube) (dim degree : ℕ) (hdim : 1 ≤ dim) :
    ∃ L, iterator_list_indices dim degree (setName s) = .ok L ∧
      ∀ k m, L[k]? = some m → k < 2 ^ 32 → (s = .cube → m ≠ List.replicate dim 0) → iterator_index m (setName s) = .ok k := by
  rcases hs with rfl | rfl
  · obtain ⟨L, h, h'⟩ := C08_triangle_index dim degree hdim
    exact ⟨L, (C84_iterators _ _ _).2.2.trans h, fun k m hk hl _ => h' k m hk hl⟩
  · obtain ⟨L, h, h'⟩ := C09_cube_index_partial dim degree hdim
    exact ⟨L, (C84_iterators _ _ _).2.2.trans h, fun k m hk hl hm => h' k m hk hl (hm rfl)⟩

/-- The full statement of `C84_iterator_index_partial` is false: crosses and rectangles have no index function. -/
theorem C84_iterator_index_false (s : IndexSet) (hs : s ≠ .triangle) (hs' : s ≠ .cube) (m : List ℕ) :
    iterator_index m (setName s) = .throws := by
  cases s <;> first | rfl | exact absurd rfl hs | exact absurd rfl hs'

/-- C84. For other names the functions on index sets raise an exception. -/
theorem C84_iterators_unknown (name : String) (h : ∀ s, name ≠ setName s) (dim n : ℕ) (m : List ℕ) :
    iterator_get_degree dim n name = .throws ∧ iterator_size dim n name = .throws ∧ iterator_list_indices dim n name = .throws ∧
      iterator_index m name = .throws := by
  refine ⟨lookup_unknown h _, lookup_unknown h _, lookup_unknown h _, ?_⟩
  have h1 := h .triangle
  have h2 := h .cube
  simp only [setName] at h1 h2
  rw [iterator_index, if_neg h1, if_neg h2]

example : ∀ s, "hypercube" ≠ setName s := by intro s; cases s <;> decide

/-! ## Tensor products -/

/-- C84. Numbers are multiplied, in a list and in a dictionary. -/
theorem C84_tensorize_numbers (items : List (List ℕ × ℝ)) (hne : items ≠ []) (dim direction : Option ℕ) (sparse : Bool) (name : String) :
    Core.tensorize (.dict (items.map fun e => (e.1, .num e.2))) dim direction sparse name = .ok (.num (items.map Prod.snd).prod) ∧
      Core.tensorize (.list (items.map fun e => .num e.2)) none none sparse name = .ok (.num (items.map Prod.snd).prod) := by
  match items, hne with
  | e :: t, _ =>
    constructor
    · have h : (((e :: t).map fun e => (e.1, PyVal.num e.2)) : List (List ℕ × PyVal)).mapM (fun e => asNum e.2) =
          .ok ((e :: t).map Prod.snd) := by
        rw [mapM_ok (g := fun e => match e.2 with | .num x => x | _ => 0), List.map_map]
        · rfl
        · intro x hx
          obtain ⟨y, -, rfl⟩ := List.mem_map.1 hx
          rfl
      show (do
        let xs ← (((e :: t).map fun (e : List ℕ × ℝ) => (e.1, PyVal.num e.2)) : List (List ℕ × PyVal)).mapM fun e => asNum e.2
        .ok (.num xs.prod) : Out PyVal) = _
      rw [h]
      rfl
    · have h : (((e :: t).map fun e => PyVal.num e.2) : List PyVal).mapM asNum = .ok ((e :: t).map Prod.snd) := by
        rw [mapM_ok (g := fun e => match e with | .num x => x | _ => 0), List.map_map]
        · rfl
        · intro x hx
          obtain ⟨y, -, rfl⟩ := List.mem_map.1 hx
          rfl
      show (if (none : Option ℕ) ≠ none ∨ (none : Option ℕ) ≠ none then (.throws : Out PyVal) else do
        let xs ← (((e :: t).map fun (e : List ℕ × ℝ) => PyVal.num e.2) : List PyVal).mapM asNum
        .ok (.num xs.prod)) = _
      rw [if_neg (by simp), h]
      rfl

/-- The vectors of a dictionary reach the C++ function. -/
theorem dictVecs_ok (items : List (List ℕ × List ℝ)) (h : ∀ e ∈ items, e.2 ≠ []) :
    dictVecs (items.map fun e => (e.1, PyVal.vec e.2)) = .ok (items.map Prod.snd) := by
  rw [dictVecs, mapM_ok (g := fun e => match e.2 with | .vec v => v | _ => []), List.map_map]
  · rfl
  · intro x hx
    obtain ⟨y, hy, rfl⟩ := List.mem_map.1 hx
    simp only [dense, PyVal.nest]
    rw [to_cpp_vec (h y hy), Out.ok_bind]
    rfl

theorem tensorizeDict_vecs (items : List (List ℕ × List ℝ)) (hne : items ≠ []) (h : ∀ e ∈ items, e.2 ≠ []) (sparse : Bool) (name : String) :
    tensorizeDict sparse name (items.map fun e => (e.1, .vec e.2)) =
      if sparse then .throws else (do
        let r ← dispatch name fun s => tensorize_vecs_dirs s (items.map Prod.snd) (items.map Prod.fst)
        .ok (.vec r)) := by
  match items, hne with
  | e :: t, _ =>
    have hm := dictVecs_ok (e :: t) h
    show (do
      let arrays ← dictVecs ((e :: t).map fun (e : List ℕ × List ℝ) => (e.1, PyVal.vec e.2))
      if sparse then .throws
      else do
        let r ← dispatch name fun s => tensorize_vecs_dirs s arrays
          (((e :: t).map fun (e : List ℕ × List ℝ) => (e.1, PyVal.vec e.2)).map Prod.fst)
        .ok (.vec r) : Out PyVal) = _
    rw [hm, Out.ok_bind, List.map_map]
    rfl

/-- C84. A dictionary of vectors with the name of an index set: the coefficient at `m` is the product of those of the vectors. -/
theorem C84_tensorize_vectors (s : IndexSet) (dim degree : ℕ) (b0 : Block ℝ) (bs : List (Block ℝ))
    (hu : Usable s b0.dirs.length degree) (hz : Sized s dim degree) (hdim : ((b0 :: bs).map (·.dirs.length)).sum = dim)
    (hb : ∀ b ∈ b0 :: bs, b.Ok s degree ∧ Dirs s dim b.dirs) (L : List (List ℕ)) (hL : s.s_list dim degree = .ok L)
    (odim odirection : Option ℕ) :
    ∃ r, Core.tensorize (.dict ((b0 :: bs).map fun b => (b.dirs, .vec b.vec))) odim odirection false (setName s) = .ok (.vec r) ∧
      r.length = L.length ∧ ∀ (i : ℕ) (m : List ℕ), L[i]? = some m → r[i]? = some (((b0 :: bs).map fun b => b.coef m).prod) := by
  obtain ⟨r, e, hr⟩ := C17_tensorize_vec s dim degree b0 bs hu hz hdim hb L hL
  refine ⟨r, ?_, hr⟩
  have hne : ∀ b ∈ b0 :: bs, b.vec ≠ [] := by
    intro b hb' h0
    obtain ⟨⟨h1, h2⟩, h3⟩ := hb b hb'
    have hzb : Sized s b.dirs.length degree := hz.sub h3.length_pos h3.length_le
    obtain ⟨t, ht⟩ := (IterOk.of_list hzb.fits' h1).runs.head
    rw [h0, ht] at h2
    simp at h2
  have := tensorizeDict_vecs ((b0 :: bs).map fun b => (b.dirs, b.vec)) (by simp) (by
    intro x hx
    obtain ⟨b, hb', rfl⟩ := List.mem_map.1 hx
    exact hne b hb') false (setName s)
  rw [List.map_map] at this
  rw [show ((fun e : List ℕ × List ℝ => (e.1, PyVal.vec e.2)) ∘ fun b : Block ℝ => (b.dirs, b.vec)) = fun b => (b.dirs, .vec b.vec) from rfl]
    at this
  rw [dispatch_name, List.map_map, List.map_map] at this
  rw [Core.tensorize, this]
  have e' : tensorize_vecs_dirs s ((b0 :: bs).map (Prod.snd ∘ fun b : Block ℝ => (b.dirs, b.vec)))
      ((b0 :: bs).map (Prod.fst ∘ fun b : Block ℝ => (b.dirs, b.vec))) = .ok r := e
  rw [e', if_neg (by simp)]
  rfl

/-- C84 is false for sparse products of vectors: there is no function for them, and every such call raises. -/
theorem C84_sparse_vectors_false (items : List (List ℕ × List ℝ)) (hne : items ≠ []) (h : ∀ e ∈ items, e.2 ≠ [])
    (dim direction : Option ℕ) (name : String) :
    Core.tensorize (.dict (items.map fun e => (e.1, .vec e.2))) dim direction true name = .throws := by
  rw [Core.tensorize, tensorizeDict_vecs items hne h, if_pos rfl]

/-- The matrices of a dictionary reach the C++ function as dense matrices. -/
theorem dictMats_ok {g : PyVal → DMat ℝ} (items : List (List ℕ × PyVal))
    (h : ∀ e ∈ items, dense e.2 = .mat (g e.2) ∧ (g e.2).getD 0 [] ≠ []) : dictMats items = .ok (items.map fun e => g e.2) := by
  rw [dictMats, mapM_ok (g := fun e => g e.2)]
  intro e he
  rw [(h e he).1]
  show (do
    let a ← to_cpp_array (nestMat (g e.2))
    appendMat a) = _
  rw [to_cpp_mat (h e he).2, Out.ok_bind]
  rfl

theorem tensorizeDict_mats {g : PyVal → DMat ℝ} (items : List (List ℕ × PyVal)) (hne : items ≠ [])
    (h : ∀ e ∈ items, dense e.2 = .mat (g e.2) ∧ (g e.2).getD 0 [] ≠ []) (sparse : Bool) (name : String) :
    tensorizeDict sparse name items = tensorizeMatsDirs sparse name (items.map fun e => g e.2) (items.map Prod.fst) := by
  match items, hne with
  | (d, v) :: t, _ =>
    have hm := dictMats_ok _ h
    have h0 := h (d, v) (by simp)
    have key : tensorizeDict sparse name ((d, v) :: t) = (do
        let arrays ← dictMats ((d, v) :: t)
        tensorizeMatsDirs sparse name arrays (((d, v) :: t).map Prod.fst)) := by
      match v, h0 with
      | .mat m, _ => rfl
      | .csr A, _ => rfl
      | .num x, h0 => simp [dense] at h0
      | .vec x, h0 => simp [dense] at h0
    rw [key, hm, Out.ok_bind]

theorem matsDirs_ok (s : IndexSet) (dim degree : ℕ) (hz : Sized s dim degree) (hu : ∀ k, 1 ≤ k → k < dim → Usable s k degree)
    (bs : List (DMat ℝ × MBlock ℝ)) (hpart : Partition dim (bs.map (·.2.dirs)))
    (hbs : ∀ b ∈ bs, s.s_list b.2.dirs.length degree = .ok b.2.list ∧ IsMat b.1 b.2.list.length b.2.list.length b.2.fn)
    (L : List (List ℕ)) (hL : s.s_list dim degree = .ok L) (sparse : Bool) :
    ∃ R, tensorizeMatsDirs sparse (setName s) (bs.map (·.1)) (bs.map (·.2.dirs)) = .ok R ∧
      IsArr R L.length L.length (fun i j => (bs.map fun b => b.2.entry (L.getD i []) (L.getD j [])).prod) ∧
      (IsCsr R ↔ sparse = true) ∧ Canonical R := by
  classical
  cases sparse with
  | true =>
    obtain ⟨R, e, h⟩ := C18_tensorize_mats (T := SpMat ℝ) s dim degree hz hu bs hpart hbs L hL
    obtain ⟨A, e', h', hc⟩ := to_csr_isArr h
    refine ⟨.csr A, ?_, h', by simp [IsCsr], fun B hB => by obtain rfl : A = B := by simpa using hB
                                                            exact hc⟩
    rw [tensorizeMatsDirs, if_pos rfl]
    simp only [dispatch_name]
    rw [e, Out.ok_bind, e', Out.ok_bind]
  | false =>
    obtain ⟨R, e, h⟩ := C18_tensorize_mats (T := DMat ℝ) s dim degree hz hu bs hpart hbs L hL
    refine ⟨.mat R, ?_, h, by simp [IsCsr], fun B hB => by cases hB⟩
    rw [tensorizeMatsDirs, if_neg (by simp)]
    simp only [dispatch_name]
    rw [e, Out.ok_bind]

/-- C84. A dictionary of matrices, each of them dense or sparse, with the name of an index set: the entry at `(m, n)` is the product of
those of the matrices, and the result is sparse if and only if that is asked for. -/
theorem C84_tensorize_matrices (s : IndexSet) (dim degree : ℕ) (hz : Sized s dim degree) (hu : ∀ k, 1 ≤ k → k < dim → Usable s k degree)
    (bs : List (PyVal × MBlock ℝ)) (hne : bs ≠ []) (hpart : Partition dim (bs.map (·.2.dirs)))
    (hbs : ∀ b ∈ bs, s.s_list b.2.dirs.length degree = .ok b.2.list ∧ IsArr b.1 b.2.list.length b.2.list.length b.2.fn)
    (L : List (List ℕ)) (hL : s.s_list dim degree = .ok L) (sparse : Bool) (odim odirection : Option ℕ) :
    ∃ R, Core.tensorize (.dict (bs.map fun b => (b.2.dirs, b.1))) odim odirection sparse (setName s) = .ok R ∧
      IsArr R L.length L.length (fun i j => (bs.map fun b => b.2.entry (L.getD i []) (L.getD j [])).prod) ∧
      (IsCsr R ↔ sparse = true) ∧ Canonical R := by
  have hlen : ∀ b ∈ bs, 1 ≤ b.2.list.length := by
    intro b hb
    obtain ⟨h1, h2⟩ := hpart.inc b.2.dirs (List.mem_map_of_mem hb)
    have hlt : ∀ x ∈ b.2.dirs, x < dim := by
      intro x hx
      have : x ∈ (bs.map (·.2.dirs)).flatten := List.mem_flatten.2 ⟨_, List.mem_map_of_mem hb, hx⟩
      simpa using hpart.perm.mem_iff.1 this
    have hd := dirs_of_increasing s h1 h2 hlt
    have hzb : Sized s b.2.dirs.length degree := hz.sub hd.length_pos hd.length_le
    obtain ⟨t, ht⟩ := (IterOk.of_list hzb.fits' (hbs b hb).1).runs.head
    rw [ht]
    simp
  let g : PyVal → DMat ℝ := fun v => match dense v with | .mat m => m | _ => []
  have hg : ∀ b ∈ bs, dense b.1 = .mat (g b.1) ∧ IsMat (g b.1) b.2.list.length b.2.list.length b.2.fn := by
    intro b hb
    obtain ⟨m, e, hm⟩ := dense_isArr (hbs b hb).2
    have : g b.1 = m := by simp only [g, e]
    rw [this]
    exact ⟨e, hm⟩
  obtain ⟨R, e, hR⟩ := matsDirs_ok s dim degree hz hu (bs.map fun b => (g b.1, b.2)) (by rw [List.map_map]; exact hpart) (by
    intro b hb
    obtain ⟨c, hc, rfl⟩ := List.mem_map.1 hb
    exact ⟨(hbs c hc).1, (hg c hc).2⟩) L hL sparse
  have e1 : ((bs.map fun b => (g b.1, b.2)).map fun b => b.1) = (bs.map fun b => (b.2.dirs, b.1)).map fun e => g e.2 := by
    rw [List.map_map, List.map_map]
    rfl
  have e2 : ((bs.map fun b => (g b.1, b.2)).map fun b => b.2.dirs) = (bs.map fun b => (b.2.dirs, b.1)).map Prod.fst := by
    rw [List.map_map, List.map_map]
    rfl
  rw [e1, e2] at e
  refine ⟨R, ?_, by simpa [Function.comp_def] using hR⟩
  rw [Core.tensorize, tensorizeDict_mats (g := g) _ (by simpa using hne)]
  · exact e
  · intro x hx
    obtain ⟨b, hb, rfl⟩ := List.mem_map.1 hx
    exact ⟨(hg _ hb).1, isMat_first (hg _ hb).2 (hlen _ hb) (hlen _ hb)⟩

/-- The hypotheses of `C84_tensorize_matrices` are met by a sparse and a dense matrix in dimension 3. -/
example : ∃ (b0 b1 : PyVal × MBlock ℝ), IsCsr b0.1 ∧ ¬IsCsr b1.1 ∧ Partition 3 ([b0, b1].map (·.2.dirs)) ∧
    (∀ b ∈ [b0, b1], IndexSet.cross.s_list b.2.dirs.length 6 = .ok b.2.list ∧ IsArr b.1 b.2.list.length b.2.list.length b.2.fn) ∧
    Sized .cross 3 6 ∧ ∀ k, 1 ≤ k → k < 3 → Usable .cross k 6 := by
  obtain ⟨L1, h1⟩ := list_exists .cross (usable_small .cross (dim := 1) (degree := 6) (by omega) (by omega) (by omega)).toSized
  obtain ⟨L2, h2⟩ := list_exists .cross (usable_small .cross (dim := 2) (degree := 6) (by omega) (by omega) (by omega)).toSized
  obtain ⟨A, -, hA, -⟩ := to_csr_isArr (LawfulMat.construct (M := SpMat ℝ) L2.length L2.length)
  refine ⟨(.csr A, ⟨[0, 2], L2, fun _ _ => 0⟩), (.mat (List.replicate L1.length (List.replicate L1.length 0)), ⟨[1], L1, fun _ _ => 0⟩),
    ⟨A, rfl⟩, by simp [IsCsr], ?_, ?_,
    (usable_small .cross (by omega) (by omega) (by omega)).toSized, fun k hk hk' => usable_small .cross hk (by omega) (by omega)⟩
  · show Partition 3 [[0, 2], [1]]
    exact ⟨by decide, by decide⟩
  intro b hb
  simp only [List.mem_cons, List.not_mem_nil, or_false] at hb
  rcases hb with rfl | rfl
  · exact ⟨h2, hA⟩
  · exact ⟨h1, LawfulMat.construct (M := DMat ℝ) L1.length L1.length⟩

theorem isMat_rows {m : DMat ℝ} {n1 n2 : ℕ} {f : ℕ → ℕ → ℝ} (h : IsMat m n1 n2 f) :
    m = (List.range n1).map fun i => (List.range n2).map fun j => f i j := by
  obtain ⟨h1, h2, h3⟩ := h
  refine List.ext_getElem (by simp [h1]) fun i hi hi' => ?_
  have hl := h2 _ (List.getElem_mem hi)
  refine List.ext_getElem (by simp [hl]) fun j hj hj' => ?_
  have := h3 i j m[i] m[i][j] (List.getElem?_eq_getElem hi) (List.getElem?_eq_getElem hj)
  simpa using this

/-- C84. The model of `Varf.tensorize` calls a shorter model of this function; the two agree. -/
theorem C84_shortcut (s : IndexSet) (dim degree : ℕ) (hz : Sized s dim degree) (hu : ∀ k, 1 ≤ k → k < dim → Usable s k degree)
    (bs : List (DMat ℝ × MBlock ℝ)) (hne : bs ≠ []) (hpart : Partition dim (bs.map (·.2.dirs)))
    (hbs : ∀ b ∈ bs, s.s_list b.2.dirs.length degree = .ok b.2.list ∧ IsMat b.1 b.2.list.length b.2.list.length b.2.fn) (sparse : Bool) :
    ∃ rows R, core_tensorize sparse s (bs.map fun b => (b.2.dirs, b.1)) = .ok rows ∧
      Core.tensorize (.dict (bs.map fun b => (b.2.dirs, .mat b.1))) none none sparse (setName s) = .ok R ∧ dense R = .mat rows := by
  classical
  obtain ⟨L, hL⟩ := list_exists s hz
  obtain ⟨t, ht⟩ := (IterOk.of_list hz.fits' hL).runs.head
  have hl : 1 ≤ L.length := by rw [ht]; simp
  obtain ⟨R, e, hR, -, -⟩ := C84_tensorize_matrices s dim degree hz hu (bs.map fun b => (PyVal.mat b.1, b.2)) (by simpa using hne)
    (by rw [List.map_map]; exact hpart) (by
      intro b hb
      obtain ⟨c, hc, rfl⟩ := List.mem_map.1 hb
      exact hbs c hc) L hL sparse none none
  rw [List.map_map] at e
  obtain ⟨m, em, hm⟩ := dense_isArr hR
  have hm' := isMat_rows hm
  simp only [List.map_map] at hm'
  have d1 : (bs.map fun b => (b.2.dirs, b.1)).map Prod.snd = bs.map (·.1) := by rw [List.map_map]; rfl
  have d2 : (bs.map fun b => (b.2.dirs, b.1)).map Prod.fst = bs.map (·.2.dirs) := by rw [List.map_map]; rfl
  refine ⟨m, R, ?_, e, em⟩
  rw [core_tensorize, d1, d2, hm']
  cases sparse with
  | true =>
    obtain ⟨R', e', h'⟩ := C18_tensorize_mats (T := SpMat ℝ) s dim degree hz hu bs hpart hbs L hL
    rw [if_pos rfl, e', Out.ok_bind, rowsOf_ok hl h']
    rfl
  | false =>
    obtain ⟨R', e', h'⟩ := C18_tensorize_mats (T := DMat ℝ) s dim degree hz hu bs hpart hbs L hL
    rw [if_neg (by simp), e', Out.ok_bind, rowsOf_ok hl h']
    rfl

/-! ### Lists -/

/-- The keys `0, 1, ...` of the items of a list. -/
def numbered {β : Type} (l : List β) : List (List ℕ × β) := (List.range l.length).map (fun i => [i]) |>.zip l

theorem numbered_fst {β : Type} (l : List β) : (numbered l).map Prod.fst = axesDirs l.length := by
  rw [numbered, List.map_fst_zip (by simp)]
  rfl

theorem numbered_snd {β : Type} (l : List β) : (numbered l).map Prod.snd = l := by
  rw [numbered, List.map_snd_zip (by simp)]

theorem numbered_map {β γ : Type} (g : β → γ) (l : List β) : (numbered l).map (fun e => (e.1, g e.2)) = numbered (l.map g) := by
  rw [numbered, numbered, List.length_map, List.zip_map_right]
  rfl

/-- C84. A list of vectors is the dictionary with the keys `0, 1, ...`, for every name and kind of result. -/
theorem C84_list_vectors (vs : List (List ℝ)) (hne : vs ≠ []) (h : ∀ v ∈ vs, v ≠ []) (sparse : Bool) (name : String) :
    Core.tensorize (.list (vs.map .vec)) none none sparse name =
      Core.tensorize (.dict (numbered (vs.map .vec))) none none sparse name := by
  have e1 := tensorizeDict_vecs (numbered vs) (by
    intro h0
    have := numbered_snd vs
    rw [h0] at this
    exact hne this.symm) (by
    intro e he
    refine h _ ?_
    rw [← numbered_snd vs]
    exact List.mem_map_of_mem he) sparse name
  rw [numbered_map, numbered_snd, numbered_fst] at e1
  rw [Core.tensorize, Core.tensorize, e1, if_neg (by simp)]
  match vs, hne, h with
  | v :: vs, _, h =>
    have ev : Nest.seq (((v :: vs).map PyVal.vec).map PyVal.nest) = nestMat (v :: vs) := by
      rw [List.map_map]
      rfl
    show tensorizeArrays sparse name ((v :: vs).map .vec) = _
    rw [tensorizeArrays, ev, to_cpp_mat (by simpa using h v (by simp)), Out.ok_bind]
    rfl

theorem numbered_ne {β : Type} {l : List β} (h : l ≠ []) : numbered l ≠ [] := by
  intro h0
  have := numbered_snd l
  rw [h0] at this
  exact h this.symm

theorem matsAxes_eq (sparse : Bool) (name : String) (ms : List (DMat ℝ)) :
    tensorizeMatsAxes sparse name ms = tensorizeMatsDirs sparse name ms (axesDirs ms.length) := by
  cases sparse <;> rfl

theorem tensorizeArrays_mats (ms : List (DMat ℝ)) (hne : ms ≠ []) (h : ∀ m ∈ ms, m.getD 0 [] ≠ []) (sparse : Bool) (name : String) :
    tensorizeArrays sparse name (ms.map .mat) = tensorizeMatsDirs sparse name ms (axesDirs ms.length) := by
  have ev : Nest.seq ((ms.map PyVal.mat).map PyVal.nest) = .seq (ms.map nestMat) := by
    rw [List.map_map]
    rfl
  rw [tensorizeArrays, ev, to_cpp_cube, Out.ok_bind, ← matsAxes_eq]
  match ms, hne, h with
  | m :: ms, _, h =>
    have := h m (by simp)
    intro h0
    rw [List.getD_cons_zero] at h0
    rw [h0] at this
    exact this rfl

theorem tensorizeDict_numbered {g : PyVal → DMat ℝ} (l : List PyVal) (hne : l ≠ [])
    (h : ∀ v ∈ l, dense v = .mat (g v) ∧ (g v).getD 0 [] ≠ []) (sparse : Bool) (name : String) :
    tensorizeDict sparse name (numbered l) = tensorizeMatsDirs sparse name (l.map g) (axesDirs l.length) := by
  have e1 := tensorizeDict_mats (g := g) (numbered l) (numbered_ne hne) (by
    intro e he
    refine h _ ?_
    rw [← numbered_snd l]
    exact List.mem_map_of_mem he) sparse name
  have e2 : ((numbered l).map fun e => g e.2) = l.map g := by
    rw [← numbered_snd (l.map g), ← numbered_map, List.map_map]
    rfl
  rw [e1, e2, numbered_fst]

/-- C84. So is a list of dense matrices. -/
theorem C84_list_matrices (ms : List (DMat ℝ)) (hne : ms ≠ []) (h : ∀ m ∈ ms, m.getD 0 [] ≠ []) (sparse : Bool) (name : String) :
    Core.tensorize (.list (ms.map .mat)) none none sparse name =
      Core.tensorize (.dict (numbered (ms.map .mat))) none none sparse name := by
  have e1 := tensorizeDict_numbered (g := fun v => match v with | .mat m => m | _ => []) (ms.map .mat) (by simpa using hne) (by
    intro v hv
    obtain ⟨m, hm, rfl⟩ := List.mem_map.1 hv
    exact ⟨rfl, h m hm⟩) sparse name
  rw [Core.tensorize, Core.tensorize, e1, if_neg (by simp)]
  have e2 : ((ms.map PyVal.mat).map fun v => match v with | .mat m => m | _ => []) = ms := by
    rw [List.map_map]
    exact List.map_id ms
  rw [e2, List.length_map, ← tensorizeArrays_mats ms hne h]
  match ms, hne with
  | m :: ms, _ => rfl

/-- C84. So is a list of sparse matrices. -/
theorem C84_list_sparse (As : List (Csr ℝ)) (hne : As ≠ []) (h : ∀ A ∈ As, 1 ≤ A.size1 ∧ 1 ≤ A.size2) (sparse : Bool) (name : String) :
    Core.tensorize (.list (As.map .csr)) none none sparse name =
      Core.tensorize (.dict (numbered (As.map .csr))) none none sparse name := by
  have hf : ∀ A ∈ As, (todense A).getD 0 [] ≠ [] := fun A hA => isMat_first (todense_isMat A) (h A hA).1 (h A hA).2
  have e1 := tensorizeDict_numbered (g := fun v => match v with | .csr A => todense A | _ => []) (As.map .csr) (by simpa using hne) (by
    intro v hv
    obtain ⟨m, hm, rfl⟩ := List.mem_map.1 hv
    exact ⟨rfl, hf m hm⟩) sparse name
  rw [Core.tensorize, Core.tensorize, e1, if_neg (by simp)]
  have e2 : ((As.map PyVal.csr).map fun v => match v with | .csr A => todense A | _ => []) = As.map todense := by
    rw [List.map_map]
    rfl
  have e3 : todenseAll (As.map PyVal.csr) = .ok ((As.map todense).map .mat) := by
    rw [todenseAll, mapM_ok (g := fun v => match v with | .csr A => .mat (todense A) | v => v), List.map_map, List.map_map]
    · rfl
    · intro v hv
      obtain ⟨m, hm, rfl⟩ := List.mem_map.1 hv
      rfl
  have e4 := tensorizeArrays_mats (As.map todense) (by simpa using hne) (by
    intro m hm
    obtain ⟨A, hA, rfl⟩ := List.mem_map.1 hm
    exact hf A hA) sparse name
  rw [List.length_map] at e4
  rw [e2, List.length_map, ← e4]
  match As, hne, e3 with
  | A :: As, _, e3 =>
    show (do
      let l ← todenseAll ((A :: As).map .csr)
      tensorizeArrays sparse name l) = _
    rw [e3, Out.ok_bind]

/-- Unlike in a dictionary, dense and sparse matrices cannot be mixed in a list: if the first one is sparse and another one is not, or the
first one is not sparse and another one is, the call raises. -/
theorem C84_list_mixed (v0 : PyVal) (l : List PyVal) (v : PyVal) (hv : v ∈ l) (h0 : ∀ x, v0 ≠ .num x) (hm : IsCsr v0 ↔ ¬IsCsr v)
    (sparse : Bool) (name : String) : Core.tensorize (.list (v0 :: l)) none none sparse name = .throws := by
  rw [Core.tensorize, if_neg (by simp)]
  by_cases hc : IsCsr v0
  · obtain ⟨A, rfl⟩ := hc
    have hnc := hm.1 ⟨A, rfl⟩
    have : todenseAll (.csr A :: l) = .throws := by
      refine mapM_throws (fun x _ => ?_) ⟨v, by simp [hv], ?_⟩
      · match x with
        | .csr B => exact Or.inl ⟨_, rfl⟩
        | .num _ => exact Or.inr rfl
        | .vec _ => exact Or.inr rfl
        | .mat _ => exact Or.inr rfl
      · match v, hnc with
        | .csr B, hnc => exact absurd ⟨B, rfl⟩ hnc
        | .num _, _ => rfl
        | .vec _, _ => rfl
        | .mat _, _ => rfl
    show (do
      let l ← todenseAll (.csr A :: l)
      tensorizeArrays sparse name l) = _
    rw [this]
    rfl
  · obtain ⟨B, rfl⟩ : IsCsr v := by
      by_contra h
      exact hc (hm.2 h)
    have key : tensorizeArrays sparse name (v0 :: l) = .throws := by
      have ht : to_cpp_array (.seq ((v0 :: l).map PyVal.nest)) = .throws := by
        have hmem : Nest.other ∈ (v0 :: l).map PyVal.nest := List.mem_map.2 ⟨.csr B, by simp [hv], rfl⟩
        rcases to_cpp_array_plain (.seq ((v0 :: l).map PyVal.nest)) with ⟨r, h⟩ | h
        · rcases to_cpp_array_inv h with ⟨w, -, k2, -⟩ | ⟨w, -, k2, -⟩ | ⟨w, -, k2, -⟩
          · rw [nestVec, Nest.seq.injEq] at k2
            rw [k2] at hmem
            obtain ⟨x, -, hx⟩ := List.mem_map.1 hmem
            cases hx
          · rw [nestMat, Nest.seq.injEq] at k2
            rw [k2] at hmem
            obtain ⟨x, -, hx⟩ := List.mem_map.1 hmem
            cases hx
          · rw [Nest.seq.injEq] at k2
            rw [k2] at hmem
            obtain ⟨x, -, hx⟩ := List.mem_map.1 hmem
            cases hx
        · exact h
      rw [tensorizeArrays, ht]
      rfl
    match v0, h0, hc, key with
    | .csr A, _, hc, _ => exact absurd ⟨A, rfl⟩ hc
    | .num x, h0, _, _ => exact absurd rfl (h0 x)
    | .vec _, _, _, key => exact key
    | .mat _, _, _, key => exact key

/-- Numbers, vectors, matrices. -/
def kindOf : PyVal → ℕ
  | .num _ => 0
  | .vec _ => 1
  | .mat _ => 2
  | .csr _ => 2

theorem append_kind (v : PyVal) (h : ∀ x, v ≠ .num x) :
    (∃ w, to_cpp_array (dense v).nest = .ok (.vec w) ∧ kindOf v = 1) ∨ (∃ m, to_cpp_array (dense v).nest = .ok (.mat m) ∧ kindOf v = 2) ∨
      to_cpp_array (dense v).nest = .throws := by
  have mat : ∀ m : List (List ℝ), (∃ m', to_cpp_array (nestMat m) = .ok (.mat m')) ∨ to_cpp_array (nestMat m) = .throws := by
    intro m
    by_cases hm : m.getD 0 [] = []
    · right
      match m, hm with
      | [], _ => rfl
      | [] :: _, _ => rfl
    · exact Or.inl ⟨m, to_cpp_mat hm⟩
  match v, h with
  | .num x, h => exact absurd rfl (h x)
  | .vec [], _ => exact Or.inr (Or.inr rfl)
  | .vec (a :: w), _ => exact Or.inl ⟨a :: w, to_cpp_vec (by simp), rfl⟩
  | .mat m, _ =>
    rcases mat m with ⟨m', e⟩ | e
    · exact Or.inr (Or.inl ⟨m', e, rfl⟩)
    · exact Or.inr (Or.inr e)
  | .csr A, _ =>
    rcases mat (todense A) with ⟨m', e⟩ | e
    · exact Or.inr (Or.inl ⟨m', e, rfl⟩)
    · exact Or.inr (Or.inr e)

/-- C84. A dictionary whose values are not all numbers, all vectors, or all matrices is rejected. -/
theorem C84_dict_mixed (e0 e : List ℕ × PyVal) (items : List (List ℕ × PyVal)) (he : e ∈ items) (hk : kindOf e.2 ≠ kindOf e0.2)
    (odim odirection : Option ℕ) (sparse : Bool) (name : String) :
    Core.tensorize (.dict (e0 :: items)) odim odirection sparse name = .throws := by
  have num : ∀ v : PyVal, (∃ y, asNum v = .ok y ∧ kindOf v = 0) ∨ asNum v = .throws := by
    intro v
    match v with
    | .num x => exact Or.inl ⟨x, rfl, rfl⟩
    | .vec _ => exact Or.inr rfl
    | .mat _ => exact Or.inr rfl
    | .csr _ => exact Or.inr rfl
  have vec : ∀ v : PyVal, (∃ y, (do let a ← to_cpp_array (dense v).nest; appendVec a) = .ok y ∧ kindOf v = 1) ∨
      (do let a ← to_cpp_array (dense v).nest; appendVec a) = .throws := by
    intro v
    by_cases hv : ∃ x, v = .num x
    · obtain ⟨x, rfl⟩ := hv
      exact Or.inr rfl
    · rcases append_kind v (fun x hx => hv ⟨x, hx⟩) with ⟨w, h1, h2⟩ | ⟨m, h1, h2⟩ | h1
      · exact Or.inl ⟨w, by rw [h1]; rfl, h2⟩
      · right; rw [h1]; rfl
      · right; rw [h1]; rfl
  have mat : ∀ v : PyVal, (∃ y, (do let a ← to_cpp_array (dense v).nest; appendMat a) = .ok y ∧ kindOf v = 2) ∨
      (do let a ← to_cpp_array (dense v).nest; appendMat a) = .throws := by
    intro v
    by_cases hv : ∃ x, v = .num x
    · obtain ⟨x, rfl⟩ := hv
      exact Or.inr rfl
    · rcases append_kind v (fun x hx => hv ⟨x, hx⟩) with ⟨w, h1, h2⟩ | ⟨m, h1, h2⟩ | h1
      · right; rw [h1]; rfl
      · exact Or.inl ⟨m, by rw [h1]; rfl, h2⟩
      · right; rw [h1]; rfl
  have em : e ∈ e0 :: items := by simp [he]
  have matCase : kindOf e0.2 = 2 → dictMats (e0 :: items) = .throws := fun h0 =>
    mapM_throws (fun x _ => (mat x.2).imp (fun ⟨y, h, _⟩ => ⟨y, h⟩) id)
      ⟨e, em, (mat e.2).resolve_left fun ⟨_, _, h⟩ => hk (h.trans h0.symm)⟩
  obtain ⟨d, v0⟩ := e0
  match v0 with
  | .num x =>
    show (do
      let xs ← (((d, PyVal.num x) :: items)).mapM fun (e : List ℕ × PyVal) => asNum e.2
      Out.ok (PyVal.num xs.prod)) = _
    rw [mapM_throws (f := fun e : List ℕ × PyVal => asNum e.2) (fun x _ => (num x.2).imp (fun ⟨y, h, _⟩ => ⟨y, h⟩) id)
      ⟨e, em, (num e.2).resolve_left fun ⟨_, _, h⟩ => hk h⟩]
    rfl
  | .vec w =>
    have : dictVecs ((d, PyVal.vec w) :: items) = .throws :=
      mapM_throws (fun x _ => (vec x.2).imp (fun ⟨y, h, _⟩ => ⟨y, h⟩) id) ⟨e, em, (vec e.2).resolve_left fun ⟨_, _, h⟩ => hk h⟩
    rw [Core.tensorize, tensorizeDict]
    simp only [List.map_cons, this]
    rfl
  | .mat m =>
    rw [Core.tensorize, tensorizeDict]
    simp only [List.map_cons, matCase rfl]
    rfl
  | .csr A =>
    rw [Core.tensorize, tensorizeDict]
    simp only [List.map_cons, matCase rfl]
    rfl

example : kindOf (.vec [1, 2]) ≠ kindOf (.mat [[1, 0], [0, 1]]) ∧
    (([1], PyVal.vec [1, 2]) : List ℕ × PyVal) ∈ [(([1], PyVal.vec [1, 2]) : List ℕ × PyVal)] := by simp [kindOf]

/-- C84. Empty lists and dictionaries, lists with a dimension or direction and single arguments without one of them, numbers as single
arguments: these raise. -/
theorem C84_tensorize_rejects (sparse : Bool) (name : String) (odim odirection : Option ℕ) (l : List PyVal) (v : PyVal) (dim direction : ℕ)
    (x : ℝ) :
    Core.tensorize (.dict []) odim odirection sparse name = .throws ∧
    Core.tensorize (.list []) odim odirection sparse name = .throws ∧
    Core.tensorize (.list l) (some dim) odirection sparse name = .throws ∧
    Core.tensorize (.list l) odim (some direction) sparse name = .throws ∧
    Core.tensorize (.single v) none odirection sparse name = .throws ∧
    Core.tensorize (.single v) odim none sparse name = .throws ∧
    Core.tensorize (.single (.num x)) odim odirection sparse name = .throws := by
  refine ⟨rfl, ?_, ?_, ?_, rfl, ?_, ?_⟩
  · rw [Core.tensorize]
    split <;> rfl
  · rw [Core.tensorize, if_pos (by simp)]
  · rw [Core.tensorize, if_pos (by simp)]
  · cases odim <;> rfl
  · cases odim <;> cases odirection <;> rfl

/-! ### One vector or matrix -/

theorem tensorizeVecId_name (s : IndexSet) (v : List ℝ) (dim direction : ℕ) {r : List ℝ}
    (h : tensorize_vec_id s v dim direction = .ok r) : tensorizeVecId (setName s) v dim direction = .ok (.vec r) := by
  rw [tensorize_vec_id] at h
  rw [tensorizeVecId]
  cases h1 : wr (List.replicate v.length (0 : ℝ)) 0 1 with
  | ok cst =>
    rw [h1, Out.ok_bind] at h
    rw [Out.ok_bind]
    cases h2 : wr (List.replicate dim cst) direction v with
    | ok vecs =>
      rw [h2, Out.ok_bind] at h
      rw [Out.ok_bind, dispatch_name, h]
      rfl
    | stop t => rw [h2] at h; cases h
    | diverge => rw [h2] at h; cases h
  | stop t => rw [h1] at h; cases h
  | diverge => rw [h1] at h; cases h

/-- C84. A vector in one direction of a space: the coefficients are those of the vector where the multi-index is zero in all other
directions, and zero elsewhere. -/
theorem C84_single_vector (s : IndexSet) (dim degree : ℕ) (hu : Usable s 1 degree) (hz : Sized s dim degree) (L1 L : List (List ℕ))
    (h1 : s.s_list 1 degree = .ok L1) (hL : s.s_list dim degree = .ok L) (v : List ℝ) (hv : v.length = L1.length) (dir : ℕ) (hd : dir < dim) :
    ∃ r, Core.tensorize (.single (.vec v)) (some dim) (some dir) false (setName s) = .ok (.vec r) ∧ r.length = L.length ∧
      ∀ (i : ℕ) (m : List ℕ), L[i]? = some m →
        r[i]? = some (if ∀ j < dim, j ≠ dir → m.getD j 0 = 0 then coef L1 v [m.getD dir 0] else 0) := by
  classical
  obtain ⟨r, e, hr, hc⟩ := C17_vec_id s dim degree hu hz L1 L h1 hL v hv dir hd
  refine ⟨r, ?_, hr, fun i m hm => ?_⟩
  · have hne : v ≠ [] := by
      rintro rfl
      obtain ⟨t, ht⟩ := (IterOk.of_list hu.toSized.fits' h1).runs.head
      rw [ht] at hv
      simp at hv
    show (do
      let a ← to_cpp_array (nestVec v)
      match a with
      | .vec w => if false = true then .throws else tensorizeVecId (setName s) w dim dir
      | .mat m => tensorizeMatId false (setName s) m dim dir
      | _ => .throws) = _
    rw [to_cpp_vec hne, Out.ok_bind]
    exact tensorizeVecId_name s v dim dir e
  · rw [hc i m hm]

/-- C84. A matrix, dense or sparse, in one direction of a space: it is extended by the identity in the other directions. -/
theorem C84_single_matrix (s : IndexSet) (dim degree : ℕ) (hz : Sized s dim degree) (hu : ∀ k, 1 ≤ k → k < dim → Usable s k degree)
    (L1 L : List (List ℕ)) (h1 : s.s_list 1 degree = .ok L1) (hL : s.s_list dim degree = .ok L) (A : PyVal) (f : ℕ → ℕ → ℝ)
    (hA : IsArr A L1.length L1.length f) (dir : ℕ) (hd : dir < dim) (sparse : Bool) :
    ∃ R, Core.tensorize (.single A) (some dim) (some dir) sparse (setName s) = .ok R ∧
      IsArr R L.length L.length (fun i j =>
        if ∀ x < dim, x ≠ dir → (L.getD i []).getD x 0 = (L.getD j []).getD x 0 then
          entry L1 f [(L.getD i []).getD dir 0] [(L.getD j []).getD dir 0] else 0) ∧ (IsCsr R ↔ sparse = true) := by
  classical
  obtain ⟨m, em, hm⟩ := dense_isArr hA
  have hz1 : Sized s 1 degree := hz.sub le_rfl (by omega)
  obtain ⟨t, ht⟩ := (IterOk.of_list hz1.fits' h1).runs.head
  have hl : 1 ≤ L1.length := by rw [ht]; simp
  have key : Core.tensorize (.single A) (some dim) (some dir) sparse (setName s) = tensorizeMatId sparse (setName s) m dim dir := by
    show (do
      let a ← to_cpp_array (dense A).nest
      match a with
      | .vec w => if sparse = true then .throws else tensorizeVecId (setName s) w dim dir
      | .mat m => tensorizeMatId sparse (setName s) m dim dir
      | _ => .throws) = _
    rw [em]
    show (do
      let a ← to_cpp_array (nestMat m)
      match a with
      | .vec w => if sparse = true then .throws else tensorizeVecId (setName s) w dim dir
      | .mat m => tensorizeMatId sparse (setName s) m dim dir
      | _ => .throws) = _
    rw [to_cpp_mat (isMat_first hm hl hl), Out.ok_bind]
  rw [key]
  cases sparse with
  | true =>
    obtain ⟨R, e, h⟩ := C18_mat_id (S := DMat ℝ) (T := SpMat ℝ) s dim degree hz hu L1 L h1 hL m f hm dir hd
    obtain ⟨B, e', h', -⟩ := to_csr_isArr h
    refine ⟨.csr B, ?_, ?_, by simp [IsCsr]⟩
    · rw [tensorizeMatId, if_pos rfl]
      simp only [dispatch_name]
      rw [tensorize_mat_id] at e
      cases h1 : (eye (MatOps.size1 m) : Out (SpMat ℝ)) with
      | ok I =>
        rw [h1, Out.ok_bind] at e
        rw [Out.ok_bind]
        cases h2 : (Convert.convert m : Out (SpMat ℝ)) with
        | ok A' =>
          rw [h2, Out.ok_bind] at e
          rw [Out.ok_bind]
          cases h3 : wr (List.replicate dim I) dir A' with
          | ok mats =>
            rw [h3, Out.ok_bind] at e
            rw [Out.ok_bind, e, Out.ok_bind, e', Out.ok_bind]
          | stop t => rw [h3] at e; cases e
          | diverge => rw [h3] at e; cases e
        | stop t => rw [h2] at e; cases e
        | diverge => rw [h2] at e; cases e
      | stop t => rw [h1] at e; cases e
      | diverge => rw [h1] at e; cases e
    · convert h' using 3
  | false =>
    obtain ⟨R, e, h⟩ := C18_mat_id (S := DMat ℝ) (T := DMat ℝ) s dim degree hz hu L1 L h1 hL m f hm dir hd
    refine ⟨.mat R, ?_, ?_, by simp [IsCsr]⟩
    · rw [tensorizeMatId, if_neg (by simp)]
      simp only [dispatch_name]
      rw [tensorize_mat_id] at e
      cases h1 : (eye (MatOps.size1 m) : Out (DMat ℝ)) with
      | ok I =>
        rw [h1, Out.ok_bind] at e
        rw [Out.ok_bind]
        cases h2 : (Convert.convert m : Out (DMat ℝ)) with
        | ok A' =>
          rw [h2, Out.ok_bind] at e
          rw [Out.ok_bind]
          cases h3 : wr (List.replicate dim I) dir A' with
          | ok mats =>
            rw [h3, Out.ok_bind] at e
            rw [Out.ok_bind, e, Out.ok_bind]
          | stop t => rw [h3] at e; cases e
          | diverge => rw [h3] at e; cases e
        | stop t => rw [h2] at e; cases e
        | diverge => rw [h2] at e; cases e
      | stop t => rw [h1] at e; cases e
      | diverge => rw [h1] at e; cases e
    · show IsMat R _ _ _
      convert h using 3

/-! ## Projection and contraction -/

/-- C84. Projection of a vector, on one direction or on a list of directions. -/
theorem C84_project_vector (s : IndexSet) (dim degree : ℕ) (hu : Usable s dim degree) (dirs : List ℕ) (hd : Dirs s dim dirs)
    (directions : ℕ ⊕ List ℕ) (hdir : directions = .inr dirs ∨ ∃ d, directions = .inl d ∧ dirs = [d]) (L : List (List ℕ))
    (hL : s.s_list dim degree = .ok L) (v : List ℝ) (hv : v.length = L.length) :
    ∃ Ls r, s.s_list dirs.length degree = .ok Ls ∧ Core.project (.vec v) dim directions (setName s) = .ok (.vec r) ∧ r.length = Ls.length ∧
      ∀ (k : ℕ) (sub : List ℕ), Ls[k]? = some sub → r[k]? = some (coef L v (embed dim dirs sub)) := by
  obtain ⟨Ls, r, h1, h2, h3⟩ := C15_project_vec s dim degree hu dirs hd L hL v hv
  refine ⟨Ls, r, h1, ?_, h3⟩
  have hne : v ≠ [] := by
    rintro rfl
    obtain ⟨t, ht⟩ := (IterOk.of_list hu.toSized.fits' hL).runs.head
    rw [ht] at hv
    simp at hv
  have key : Core.project (.vec v) dim directions (setName s) = (do
      let a ← to_cpp_array (nestVec v)
      match a with
      | .vec w => do
        let r ← dispatch (setName s) fun s => project_vec s w dim dirs
        .ok (.vec r)
      | .mat m => do
        let R : DMat ℝ ← dispatch (setName s) fun s => project_mat (M := DMat ℝ) s m dim dirs
        let N ← to_numpy_mat R
        .ok (.mat (ndRows N))
      | _ => .throws) := by
    rcases hdir with rfl | ⟨d, rfl, rfl⟩ <;> rfl
  rw [key, to_cpp_vec hne, Out.ok_bind]
  simp only [dispatch_name]
  rw [h2, Out.ok_bind]

/-- C84, partial: projection of a matrix, which stays dense or sparse as it is. Missing: sparse matrices with repeated entries, for which the
entries are wrong, see `C43_repeated_false`. -/
theorem C84_project_matrix_partial (s : IndexSet) (dim degree : ℕ) (hu : Usable s dim degree) (dirs : List ℕ) (hd : Dirs s dim dirs)
    (directions : ℕ ⊕ List ℕ) (hdir : directions = .inr dirs ∨ ∃ d, directions = .inl d ∧ dirs = [d]) (L : List (List ℕ))
    (hL : s.s_list dim degree = .ok L) (A : PyVal) (f : ℕ → ℕ → ℝ) (hA : IsArr A L.length L.length f) (hc : Canonical A) :
    ∃ Ls R, s.s_list dirs.length degree = .ok Ls ∧ Core.project A dim directions (setName s) = .ok R ∧
      IsArr R Ls.length Ls.length
        (fun a b => entry L f (embed dim dirs (Ls.getD a [])) (embed dim dirs (Ls.getD b []))) ∧ (IsCsr R ↔ IsCsr A) := by
  obtain ⟨t, ht⟩ := (IterOk.of_list hu.toSized.fits' hL).runs.head
  have hl : 1 ≤ L.length := by rw [ht]; simp
  match A, hA, hc with
  | .mat m, hA, _ =>
    obtain ⟨Ls, R, h1, h2, h3⟩ := C16_project_mat (M := DMat ℝ) s dim degree hu dirs hd L hL m f hA
    have hzs : Sized s dirs.length degree := hu.toSized.sub hd.length_pos hd.length_le
    obtain ⟨ts, hts⟩ := (IterOk.of_list hzs.fits' h1).runs.head
    obtain ⟨N, e, hN, -⟩ := to_numpy_mat_ok (by rw [hts]; simp) h3
    refine ⟨Ls, .mat (ndRows N), h1, ?_, ndRows_isMat hN, by simp [IsCsr]⟩
    have key : Core.project (.mat m) dim directions (setName s) = (do
        let a ← to_cpp_array (nestMat m)
        match a with
        | .vec w => do
          let r ← dispatch (setName s) fun s => project_vec s w dim dirs
          .ok (.vec r)
        | .mat m => do
          let R : DMat ℝ ← dispatch (setName s) fun s => project_mat (M := DMat ℝ) s m dim dirs
          let N ← to_numpy_mat R
          .ok (.mat (ndRows N))
        | _ => .throws) := by
      rcases hdir with rfl | ⟨d, rfl, rfl⟩ <;> rfl
    rw [key, to_cpp_mat (isMat_first hA hl hl), Out.ok_bind]
    simp only [dispatch_name]
    rw [h2, Out.ok_bind, e, Out.ok_bind]
  | .csr C, ⟨k1, k2, k3, k4⟩, hc =>
    obtain ⟨M, e0, hM⟩ := to_spmat_csr_ok k1
    have hM' : IsMat M L.length L.length f := by
      have := LawfulMat.congr hM fun i j hi _ => csrLast_eq_entry (hc C rfl i j hi)
      rw [k2, k3] at this
      exact LawfulMat.congr this k4
    obtain ⟨Ls, R, h1, h2, h3⟩ := C16_project_mat (M := SpMat ℝ) s dim degree hu dirs hd L hL M f hM'
    obtain ⟨B, e', h', -⟩ := to_csr_isArr h3
    refine ⟨Ls, .csr B, h1, ?_, h', by simp [IsCsr]⟩
    have key : Core.project (.csr C) dim directions (setName s) = (do
        let M ← convert_to_cpp_sparse C
        let R ← dispatch (setName s) fun s => project_mat s M dim dirs
        let B ← to_csr R
        .ok (.csr B)) := by
      rcases hdir with rfl | ⟨d, rfl, rfl⟩ <;> rfl
    have e0' : convert_to_cpp_sparse C = .ok M := e0
    rw [key, e0', Out.ok_bind]
    simp only [dispatch_name]
    rw [h2, Out.ok_bind, e', Out.ok_bind]

/-- C84. Contraction of two vectors is the one of the C++ function for the set with the given name; anything but two vectors raises. -/
theorem C84_inner (s : IndexSet) (d1 d2 : List ℕ) :
    (∀ s1 s2 : List ℝ, s1 ≠ [] → s2 ≠ [] →
      Core.inner (.seq (s1.map .num)) (.seq (s2.map .num)) d1 d2 (setName s) = Hermipy.inner s s1 s2 d1 d2) ∧
    ∀ (a1 a2 : Nest) (name : String), (∀ v : List ℝ, v ≠ [] → a1 ≠ .seq (v.map .num)) ∨ (∀ v : List ℝ, v ≠ [] → a2 ≠ .seq (v.map .num)) →
      Core.inner a1 a2 d1 d2 name = .throws := by
  constructor
  · intro s1 s2 h1 h2
    have e1 : to_cpp_array (.seq (s1.map .num)) = .ok (.vec s1) := to_cpp_vec h1
    have e2 : to_cpp_array (.seq (s2.map .num)) = .ok (.vec s2) := to_cpp_vec h2
    rw [Core.inner, e1, Out.ok_bind, e2, Out.ok_bind]
    exact dispatch_name s _
  · intro a1 a2 name h
    rw [Core.inner]
    rcases to_cpp_array_plain a1 with ⟨r1, e1⟩ | e1
    · rw [e1, Out.ok_bind]
      rcases to_cpp_array_plain a2 with ⟨r2, e2⟩ | e2
      · rw [e2, Out.ok_bind]
        split
        · rename_i v1 v2
          rcases h with h | h
          · obtain ⟨k1, k2⟩ := ((C84_to_cpp_array a1).1 v1).1 e1
            exact absurd k2 (h v1 k1)
          · obtain ⟨k1, k2⟩ := ((C84_to_cpp_array a2).1 v2).1 e2
            exact absurd k2 (h v2 k1)
        · rfl
      · rw [e2]
        rfl
    · rw [e1]
      rfl

/-! ## Unknown names -/

/-- For a name that is not one of an index set, tensor products, projections and contractions terminate the Python process with status 1,
instead of raising an exception as the functions on index sets do. -/
theorem C84_unknown_exits (name : String) (h : ∀ s, name ≠ setName s) :
    (∀ (items : List (List ℕ × List ℝ)) (odim odirection : Option ℕ), items ≠ [] → (∀ e ∈ items, e.2 ≠ []) →
      Core.tensorize (.dict (items.map fun e => (e.1, .vec e.2))) odim odirection false name = .stop (.exit 1)) ∧
    (∀ (items : List (List ℕ × PyVal)) (odim odirection : Option ℕ) (sparse : Bool), items ≠ [] →
      (∀ e ∈ items, ∃ n1 n2 f, 1 ≤ n1 ∧ 1 ≤ n2 ∧ IsArr e.2 n1 n2 f) →
      Core.tensorize (.dict items) odim odirection sparse name = .stop (.exit 1)) ∧
    (∀ (v : List ℝ) (dim : ℕ) (directions : ℕ ⊕ List ℕ), v ≠ [] → Core.project (.vec v) dim directions name = .stop (.exit 1)) ∧
    (∀ (m : List (List ℝ)) (dim : ℕ) (directions : ℕ ⊕ List ℕ), m.getD 0 [] ≠ [] →
      Core.project (.mat m) dim directions name = .stop (.exit 1)) ∧
    (∀ (A : Csr ℝ) (dim : ℕ) (directions : ℕ ⊕ List ℕ), CsrOk A → Core.project (.csr A) dim directions name = .stop (.exit 1)) ∧
    ∀ (s1 s2 : List ℝ) (d1 d2 : List ℕ), s1 ≠ [] → s2 ≠ [] →
      Core.inner (.seq (s1.map .num)) (.seq (s2.map .num)) d1 d2 name = .stop (.exit 1) := by
  refine ⟨?_, ?_, ?_, ?_, ?_, ?_⟩
  · intro items odim odirection h1 h2
    rw [Core.tensorize, tensorizeDict_vecs items h1 h2, if_neg (by simp), dispatch_unknown h]
    rfl
  · intro items odim odirection sparse h1 h2
    let g : PyVal → DMat ℝ := fun v => match dense v with | .mat m => m | _ => []
    rw [Core.tensorize, tensorizeDict_mats (g := g) items h1]
    · cases sparse
      · rw [tensorizeMatsDirs, if_neg (by simp), dispatch_unknown h]
        rfl
      · rw [tensorizeMatsDirs, if_pos rfl, dispatch_unknown h]
        rfl
    · intro e he
      obtain ⟨n1, n2, f, k1, k2, k3⟩ := h2 e he
      obtain ⟨m, em, hm⟩ := dense_isArr k3
      have : g e.2 = m := by simp only [g, em]
      rw [this]
      exact ⟨em, isMat_first hm k1 k2⟩
  · intro v dim directions hv
    show (do
      let a ← to_cpp_array (nestVec v)
      match a with
      | .vec w => do
        let r ← dispatch name fun s => project_vec s w dim (match directions with | .inl d => [d] | .inr ds => ds)
        .ok (PyVal.vec r)
      | .mat m => do
        let R : DMat ℝ ← dispatch name fun s => project_mat (M := DMat ℝ) s m dim (match directions with | .inl d => [d] | .inr ds => ds)
        let N ← to_numpy_mat R
        .ok (PyVal.mat (ndRows N))
      | _ => .throws) = _
    rw [to_cpp_vec hv, Out.ok_bind]
    simp only [dispatch_unknown h]
    rfl
  · intro v dim directions hv
    show (do
      let a ← to_cpp_array (nestMat v)
      match a with
      | .vec w => do
        let r ← dispatch name fun s => project_vec s w dim (match directions with | .inl d => [d] | .inr ds => ds)
        .ok (PyVal.vec r)
      | .mat m => do
        let R : DMat ℝ ← dispatch name fun s => project_mat (M := DMat ℝ) s m dim (match directions with | .inl d => [d] | .inr ds => ds)
        let N ← to_numpy_mat R
        .ok (PyVal.mat (ndRows N))
      | _ => .throws) = _
    rw [to_cpp_mat hv, Out.ok_bind]
    simp only [dispatch_unknown h]
    rfl
  · intro A dim directions hA
    obtain ⟨M, e0, -⟩ := to_spmat_csr_ok hA
    have e0' : convert_to_cpp_sparse A = .ok M := e0
    show (do
      let M ← convert_to_cpp_sparse A
      let R ← dispatch name fun s => project_mat s M dim (match directions with | .inl d => [d] | .inr ds => ds)
      let B ← to_csr R
      .ok (PyVal.csr B)) = _
    rw [e0', Out.ok_bind]
    simp only [dispatch_unknown h]
    rfl
  · intro s1 s2 d1 d2 h1 h2
    have e1 : to_cpp_array (.seq (s1.map .num)) = .ok (.vec s1) := to_cpp_vec h1
    have e2 : to_cpp_array (.seq (s2.map .num)) = .ok (.vec s2) := to_cpp_vec h2
    rw [Core.inner, e1, Out.ok_bind, e2, Out.ok_bind]
    exact dispatch_unknown h _

end Hermipy.Props
