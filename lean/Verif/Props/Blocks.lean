import Verif.Lemmas.TensorizeId

/-!
# Properties C15 - C20: projection and tensorization

`Spec.Sized` / `Spec.Usable` state when sizes fit in 32 bits and when the degree can be recovered from a size;
`usable_up_to_dim_four` shows that both hold for every index set up to dimension 4 and degree 250.
-/

namespace Hermipy.Props

open Hermipy.Spec

variable {α : Type}

/-- The side condition of C15 - C23 holds for every index set in dimensions 1 to 4 and degrees up to 250. -/
theorem usable_up_to_dim_four (s : IndexSet) (dim degree : Nat) (h1 : 1 ≤ dim) (h4 : dim ≤ 4) (hd : degree ≤ 250) :
    Usable s dim degree := usable_small s h1 h4 hd

/-- C15. Projection of a coefficient vector keeps exactly the coefficients of the embedded multi-indices. -/
theorem C15_project_vec [Zero α] (s : IndexSet) (dim degree : Nat) (hu : Usable s dim degree) (dirs : List Nat)
    (hd : Dirs s dim dirs) (L : List (List Nat)) (hL : s.s_list dim degree = .ok L) (v : List α)
    (hv : v.length = L.length) :
    ∃ Ls r, s.s_list dirs.length degree = .ok Ls ∧ project_vec s v dim dirs = .ok r ∧ r.length = Ls.length ∧
      ∀ (k : Nat) (sub : List Nat), Ls[k]? = some sub → r[k]? = some (coef L v (embed dim dirs sub)) := by
  obtain ⟨Ls, r, h1, h2, h3, h4⟩ := project_vec_ok hu hd (IterOk.of_list hu.toSized.fits' hL) hv
  exact ⟨Ls, r, h1.list, h2, h3, h4⟩

/-- Increasing lists of directions satisfy the hypothesis on the directions. -/
theorem C15_increasing_dirs (s : IndexSet) (dim : Nat) (dirs : List Nat) (hne : dirs ≠ []) (hi : dirs.Pairwise (· < ·))
    (hlt : ∀ d ∈ dirs, d < dim) : Dirs s dim dirs := dirs_of_increasing s hne hi hlt

example : Usable .cross 3 20 ∧ Dirs .cross 3 [0, 2] ∧ ∃ L, IndexSet.cross.s_list 3 20 = .ok L :=
  have h := usable_small .cross (dim := 3) (degree := 20) (by omega) (by omega) (by omega)
  ⟨h, C15_increasing_dirs _ _ _ (by decide) (by decide) (by decide), list_exists _ h.toSized⟩

/-- C16. Projection of a matrix is the submatrix of the embedded multi-indices; dense and sparse. -/
theorem C16_project_mat {M : Type} [Zero α] [MatOps M α] [Meaning M α] [LawfulMat M α] (s : IndexSet) (dim degree : Nat)
    (hu : Usable s dim degree) (dirs : List Nat) (hd : Dirs s dim dirs) (L : List (List Nat))
    (hL : s.s_list dim degree = .ok L) (A : M) (f : Nat → Nat → α) (hA : IsMat A L.length L.length f) :
    ∃ Ls r, s.s_list dirs.length degree = .ok Ls ∧ project_mat s A dim dirs = .ok r ∧
      IsMat r Ls.length Ls.length
        (fun a b => entry L f (embed dim dirs (Ls.getD a [])) (embed dim dirs (Ls.getD b []))) := by
  obtain ⟨Ls, r, h1, h2, h3⟩ := project_mat_ok hu hd (IterOk.of_list hu.toSized.fits' hL) hA
  exact ⟨Ls, r, h1.list, h2, h3⟩

/-- C16 for dense and for sparse matrices. -/
theorem C16_dense_and_sparse [Zero α] (s : IndexSet) (dim degree : Nat) (hu : Usable s dim degree) (dirs : List Nat)
    (hd : Dirs s dim dirs) (L : List (List Nat)) (hL : s.s_list dim degree = .ok L) (f : Nat → Nat → α) (A : DMat α)
    (B : SpMat α) (hA : IsMat A L.length L.length f) (hB : IsMat B L.length L.length f) :
    ∃ Ls r r', s.s_list dirs.length degree = .ok Ls ∧ project_mat s A dim dirs = .ok r ∧
      project_mat s B dim dirs = .ok r' ∧
      IsMat r Ls.length Ls.length
        (fun a b => entry L f (embed dim dirs (Ls.getD a [])) (embed dim dirs (Ls.getD b []))) ∧
      IsMat r' Ls.length Ls.length
        (fun a b => entry L f (embed dim dirs (Ls.getD a [])) (embed dim dirs (Ls.getD b []))) := by
  obtain ⟨Ls, r, h1, h2, h3⟩ := C16_project_mat s dim degree hu dirs hd L hL A f hA
  obtain ⟨Ls', r', h1', h2', h3'⟩ := C16_project_mat s dim degree hu dirs hd L hL B f hB
  rw [h1] at h1'
  obtain rfl : Ls = Ls' := by simpa using h1'
  exact ⟨Ls, r, r', h1, h2, h2', h3, h3'⟩

example : IsMat (⟨3, 3, [((0, 1), 5), ((2, 2), 7)]⟩ : SpMat Int) 3 3
    (fun i j => if i = 0 ∧ j = 1 then 5 else if i = 2 ∧ j = 2 then 7 else 0) := by
  refine ⟨rfl, rfl, by decide, by decide, fun i j _ _ h => ?_⟩
  have h1 := h ((0, 1), 5) (by simp)
  have h2 := h ((2, 2), 7) (by simp)
  simp only [ne_eq, Prod.mk.injEq] at h1 h2
  beta_reduce
  rw [if_neg (fun h => h1 ⟨h.1.symm, h.2.symm⟩), if_neg (fun h => h2 ⟨h.1.symm, h.2.symm⟩)]

/-- C17. Tensorization of vectors along blocks of directions has at each multi-index the product of the coefficients of the
blocks at its restrictions. -/
theorem C17_tensorize_vec [MonoidWithZero α] (s : IndexSet) (dim degree : Nat) (b0 : Block α) (bs : List (Block α))
    (hu : Usable s b0.dirs.length degree) (hz : Sized s dim degree)
    (hdim : ((b0 :: bs).map (·.dirs.length)).sum = dim) (hb : ∀ b ∈ b0 :: bs, b.Ok s degree ∧ Dirs s dim b.dirs)
    (L : List (List Nat)) (hL : s.s_list dim degree = .ok L) :
    ∃ r, tensorize_vecs_dirs s ((b0 :: bs).map (·.vec)) ((b0 :: bs).map (·.dirs)) = .ok r ∧ r.length = L.length ∧
      ∀ (i : Nat) (m : List Nat), L[i]? = some m → r[i]? = some (((b0 :: bs).map fun b => b.coef m).prod) :=
  tensorize_vecs_ok hu hz hdim hb (IterOk.of_list hz.fits' hL)

example : ∃ b0 b1 : Block Int, Usable .rectangle b0.dirs.length 6 ∧ Sized .rectangle 3 6 ∧
    ([b0, b1].map (·.dirs.length)).sum = 3 ∧ ∀ b ∈ [b0, b1], b.Ok .rectangle 6 ∧ Dirs .rectangle 3 b.dirs := by
  obtain ⟨L1, h1⟩ := list_exists .rectangle (usable_small .rectangle (dim := 1) (degree := 6) (by omega) (by omega) (by omega)).toSized
  obtain ⟨L2, h2⟩ := list_exists .rectangle (usable_small .rectangle (dim := 2) (degree := 6) (by omega) (by omega) (by omega)).toSized
  refine ⟨⟨[1], L1, L1.map fun m => m.sum⟩, ⟨[0, 2], L2, L2.map fun m => m.sum⟩,
    usable_small _ (by simp) (by simp) (by omega), (usable_small _ (by omega) (by omega) (by omega)).toSized, rfl, ?_⟩
  intro b hb
  simp only [List.mem_cons, List.not_mem_nil, or_false] at hb
  rcases hb with rfl | rfl
  · exact ⟨⟨h1, by simp⟩, C15_increasing_dirs _ _ [1] (by decide) (by decide) (by decide)⟩
  · exact ⟨⟨h2, by simp⟩, C15_increasing_dirs _ _ [0, 2] (by decide) (by decide) (by decide)⟩

/-- C18. Tensorization of matrices, given in any storage and returned in any storage: the entry at `(m, n)` is the product of
the entries of the blocks at the restrictions. Every intermediate dimension must allow recovering the degree. -/
theorem C18_tensorize_mats {S T : Type} [MonoidWithZero α] [Meaning S α] [Meaning T α] [Convert S (SpMat α)]
    [Convert (SpMat α) T] [LawfulConvert S (SpMat α) α] [LawfulConvert (SpMat α) T α] (s : IndexSet) (dim degree : Nat)
    (hz : Sized s dim degree) (hu : ∀ k, 1 ≤ k → k < dim → Usable s k degree) (bs : List (S × MBlock α))
    (hpart : Partition dim (bs.map (·.2.dirs)))
    (hbs : ∀ b ∈ bs, s.s_list b.2.dirs.length degree = .ok b.2.list ∧ IsMat b.1 b.2.list.length b.2.list.length b.2.fn)
    (L : List (List Nat)) (hL : s.s_list dim degree = .ok L) :
    ∃ R : T, tensorize_mats_dirs (α := α) s (bs.map (·.1)) (bs.map (·.2.dirs)) = .ok R ∧
      IsMat R L.length L.length (fun i j => (bs.map fun b => b.2.entry (L.getD i []) (L.getD j [])).prod) :=
  tensorize_mats_ok hz hu hpart hbs (IterOk.of_list hz.fits' hL)

/-- C18 for the storages of the library, with the side conditions discharged up to dimension 4 and degree 250. -/
theorem C18_dense_and_sparse [MonoidWithZero α] [DecidableEq α] (s : IndexSet) (dim degree : Nat) (h1 : 1 ≤ dim)
    (h4 : dim ≤ 4) (hd : degree ≤ 250) (bd : List (DMat α × MBlock α)) (bsp : List (SpMat α × MBlock α))
    (hsame : bsp.map (·.2) = bd.map (·.2)) (hpart : Partition dim (bd.map (·.2.dirs)))
    (hbd : ∀ b ∈ bd, s.s_list b.2.dirs.length degree = .ok b.2.list ∧ IsMat b.1 b.2.list.length b.2.list.length b.2.fn)
    (hbs : ∀ b ∈ bsp, IsMat b.1 b.2.list.length b.2.list.length b.2.fn)
    (L : List (List Nat)) (hL : s.s_list dim degree = .ok L) :
    ∃ (R R' : DMat α) (P P' : SpMat α),
      tensorize_mats_dirs (α := α) s (bd.map (·.1)) (bd.map (·.2.dirs)) = .ok R ∧
      tensorize_mats_dirs (α := α) s (bsp.map (·.1)) (bd.map (·.2.dirs)) = .ok R' ∧
      tensorize_mats_dirs (α := α) s (bd.map (·.1)) (bd.map (·.2.dirs)) = .ok P ∧
      tensorize_mats_dirs (α := α) s (bsp.map (·.1)) (bd.map (·.2.dirs)) = .ok P' ∧
      IsMat R L.length L.length (fun i j => (bd.map fun b => b.2.entry (L.getD i []) (L.getD j [])).prod) ∧
      IsMat R' L.length L.length (fun i j => (bd.map fun b => b.2.entry (L.getD i []) (L.getD j [])).prod) ∧
      IsMat P L.length L.length (fun i j => (bd.map fun b => b.2.entry (L.getD i []) (L.getD j [])).prod) ∧
      IsMat P' L.length L.length (fun i j => (bd.map fun b => b.2.entry (L.getD i []) (L.getD j [])).prod) := by
  have hz := (usable_small s h1 h4 hd).toSized
  have hu : ∀ k, 1 ≤ k → k < dim → Usable s k degree := fun k hk hkd => usable_small s hk (by omega) hd
  have hdirs : bsp.map (·.2.dirs) = bd.map (·.2.dirs) := map_pair_eq hsame (fun u => u.dirs)
  have hbs' : ∀ b ∈ bsp, s.s_list b.2.dirs.length degree = .ok b.2.list ∧
      IsMat b.1 b.2.list.length b.2.list.length b.2.fn := by
    intro b hb
    have : b.2 ∈ bsp.map (·.2) := List.mem_map.2 ⟨b, hb, rfl⟩
    rw [hsame] at this
    obtain ⟨c, hc, ec⟩ := List.mem_map.1 this
    exact ⟨by rw [← ec]; exact (hbd c hc).1, hbs b hb⟩
  have hent : ∀ i j, (bsp.map fun b => b.2.entry (L.getD i []) (L.getD j [])) =
      bd.map fun b => b.2.entry (L.getD i []) (L.getD j []) := fun i j =>
    map_pair_eq hsame (fun u => u.entry (L.getD i []) (L.getD j []))
  obtain ⟨R, e1, k1⟩ := C18_tensorize_mats (T := DMat α) s dim degree hz hu bd hpart hbd L hL
  obtain ⟨R', e2, k2⟩ := C18_tensorize_mats (T := DMat α) s dim degree hz hu bsp (by rw [hdirs]; exact hpart) hbs' L hL
  obtain ⟨P, e3, k3⟩ := C18_tensorize_mats (T := SpMat α) s dim degree hz hu bd hpart hbd L hL
  obtain ⟨P', e4, k4⟩ := C18_tensorize_mats (T := SpMat α) s dim degree hz hu bsp (by rw [hdirs]; exact hpart) hbs' L hL
  rw [hdirs] at e2 e4
  simp only [hent] at k2 k4
  exact ⟨R, R', P, P', e1, e2, e3, e4, k1, k2, k3, k4⟩

example : Partition 3 [[1], [0, 2]] := ⟨by decide, by decide⟩

/-- C19, vectors. Permuting the factors together with their directions does not change the result. -/
theorem C19_vec_order [CommMonoidWithZero α] (s : IndexSet) (dim degree : Nat) (hz : Sized s dim degree)
    (bs bs' : List (Block α)) (hp : bs.Perm bs') (hne : bs ≠ [])
    (hdim : (bs.map (·.dirs.length)).sum = dim)
    (hb : ∀ b ∈ bs, Usable s b.dirs.length degree ∧ b.Ok s degree ∧ Dirs s dim b.dirs) :
    ∃ r, tensorize_vecs_dirs s (bs.map (·.vec)) (bs.map (·.dirs)) = .ok r ∧
      tensorize_vecs_dirs s (bs'.map (·.vec)) (bs'.map (·.dirs)) = .ok r := by
  obtain ⟨L, hL⟩ := list_exists s hz
  have hdim' : (bs'.map (·.dirs.length)).sum = dim := by rw [← hdim]; exact ((hp.map _).sum_eq).symm
  have hb' : ∀ b ∈ bs', Usable s b.dirs.length degree ∧ b.Ok s degree ∧ Dirs s dim b.dirs :=
    fun b h => hb b (hp.mem_iff.2 h)
  match bs, bs', hp, hne, hdim, hdim', hb, hb' with
  | b0 :: bs, [], hp, _, _, _, _, _ => simp at hp
  | b0 :: bs, c0 :: cs, hp, _, hdim, hdim', hb, hb' =>
    obtain ⟨r, e, hl, h⟩ := C17_tensorize_vec s dim degree b0 bs (hb b0 (by simp)).1 hz hdim (fun b h => (hb b h).2) L hL
    obtain ⟨r', e', hl', h'⟩ := C17_tensorize_vec s dim degree c0 cs (hb' c0 (by simp)).1 hz hdim' (fun b h => (hb' b h).2) L hL
    have : r = r' := by
      apply List.ext_getElem?
      intro i
      by_cases hi : i < L.length
      · have hm := List.getElem?_eq_getElem hi
        rw [h i _ hm, h' i _ hm, (hp.map _).prod_eq]
      · rw [List.getElem?_eq_none (by omega), List.getElem?_eq_none (by omega)]
    subst this
    exact ⟨r, e, e'⟩

/-- C19, matrices. Permuting the factors together with their directions gives a matrix with the same entries. -/
theorem C19_mat_order {S T : Type} [CommMonoidWithZero α] [Meaning S α] [Meaning T α] [Convert S (SpMat α)]
    [Convert (SpMat α) T] [LawfulConvert S (SpMat α) α] [LawfulConvert (SpMat α) T α] (s : IndexSet) (dim degree : Nat)
    (hz : Sized s dim degree) (hu : ∀ k, 1 ≤ k → k < dim → Usable s k degree) (bs bs' : List (S × MBlock α))
    (hp : bs.Perm bs') (hpart : Partition dim (bs.map (·.2.dirs)))
    (hbs : ∀ b ∈ bs, s.s_list b.2.dirs.length degree = .ok b.2.list ∧ IsMat b.1 b.2.list.length b.2.list.length b.2.fn) :
    ∃ (R R' : T) (n : Nat) (f : Nat → Nat → α),
      tensorize_mats_dirs (α := α) s (bs.map (·.1)) (bs.map (·.2.dirs)) = .ok R ∧
      tensorize_mats_dirs (α := α) s (bs'.map (·.1)) (bs'.map (·.2.dirs)) = .ok R' ∧
      s.s_size dim degree = .ok n ∧ IsMat R n n f ∧ IsMat R' n n f := by
  obtain ⟨L, hL⟩ := list_exists s hz
  obtain ⟨R, e, h⟩ := C18_tensorize_mats (T := T) s dim degree hz hu bs hpart hbs L hL
  have hpart' : Partition dim (bs'.map (·.2.dirs)) := by
    have hp2 := hp.map (fun b => b.2.dirs)
    exact ⟨fun d hd => hpart.inc d (hp2.mem_iff.2 hd), hp2.symm.flatten.trans hpart.perm⟩
  obtain ⟨R', e', h'⟩ := C18_tensorize_mats (T := T) s dim degree hz hu bs' hpart' (fun b hb => hbs b (hp.mem_iff.2 hb)) L hL
  have hok := IterOk.of_list hz.fits' hL
  refine ⟨R, R', L.length, _, e, e', ?_, h, ?_⟩
  · exact hok.size hz.dim_pos (by rw [hok.length]; exact hz.card_lt)
  · have : (fun i j => (bs.map fun b => b.2.entry (L.getD i []) (L.getD j [])).prod) =
        fun i j => (bs'.map fun b => b.2.entry (L.getD i []) (L.getD j [])).prod := by
      funext i j
      exact (hp.map _).prod_eq
    rw [this]
    exact h'

/-- C20, vectors (partial: for the rectangle, the block must contain direction 0; without this the statement is false, see
`C20_rectangle_loses`). Projecting a tensor product on the directions of one factor returns this factor times the
product of the constant coefficients of the others. -/
theorem C20_project_tensorize_partial [CommMonoidWithZero α] (s : IndexSet) (dim degree : Nat) (hu : Usable s dim degree)
    (l1 l2 : List (Block α)) (b : Block α) (hdim : ((l1 ++ b :: l2).map (·.dirs.length)).sum = dim)
    (hb : ∀ c ∈ l1 ++ b :: l2, Usable s c.dirs.length degree ∧ c.Ok s degree ∧ Dirs s dim c.dirs)
    (hdisj : ∀ c ∈ l1 ++ l2, ∀ x ∈ c.dirs, x ∉ b.dirs) (hrect : s = .rectangle → 0 ∈ b.dirs) :
    ∃ r, tensorize_vecs_dirs s ((l1 ++ b :: l2).map (·.vec)) ((l1 ++ b :: l2).map (·.dirs)) = .ok r ∧
      project_vec s r dim b.dirs =
        .ok (b.vec.map fun x => x * ((l1 ++ l2).map fun c => c.vec.getD 0 0).prod) := by
  have hz := hu.toSized
  obtain ⟨L, hL⟩ := list_exists s hz
  have hok := IterOk.of_list hz.fits' hL
  obtain ⟨c0, cs, hcs⟩ : ∃ c0 cs, l1 ++ b :: l2 = c0 :: cs := by
    cases l1 with
    | nil => exact ⟨b, l2, rfl⟩
    | cons a l => exact ⟨a, l ++ b :: l2, rfl⟩
  obtain ⟨r, e, hl, h⟩ := C17_tensorize_vec s dim degree c0 cs (hb c0 (by rw [hcs]; simp)).1 hz (by rw [← hcs]; exact hdim)
    (fun c hc => (hb c (by rw [hcs]; exact hc)).2) L hL
  rw [← hcs] at e h
  refine ⟨r, e, ?_⟩
  have hbm : b ∈ l1 ++ b :: l2 := by simp
  obtain ⟨Ls, p, h1, h2, h3, h4⟩ := C15_project_vec s dim degree hu b.dirs (hb b hbm).2.2 L hL r hl
  rw [(hb b hbm).2.1.1] at h1
  obtain rfl : b.list = Ls := by simpa using h1
  rw [h2]
  congr 1
  have hbl := (hb b hbm).2.1.2
  have hbok := IterOk.of_list (hb b hbm).1.toSized.fits' (hb b hbm).2.1.1
  apply List.ext_getElem?
  intro k
  by_cases hk : k < b.list.length
  · have hm := List.getElem?_eq_getElem hk
    have hmem := (hok.mem _).2 (inSet_embed (hb b hbm).2.2 hrect ((hbok.mem _).1 (List.mem_of_getElem? hm)))
    have hr := h _ _ (getElem?_idxOf' hmem)
    rw [h4 k _ hm, coef, List.getD_eq_getElem?_getD, hr, Option.getD_some,
      coef_tensor hz (fun c hc => (hb c hc).2) hdisj hm, List.getElem?_map, List.getElem?_eq_getElem (by omega)]
    simp [show k < b.vec.length by omega]
  · rw [List.getElem?_eq_none (by omega), List.getElem?_eq_none (by simp; omega)]

/-- C20, matrices (partial as above). -/
theorem C20_project_tensorize_mat_partial {S T : Type} [CommMonoidWithZero α] [Meaning S α] [Meaning T α] [MatOps T α]
    [LawfulMat T α] [Convert S (SpMat α)] [Convert (SpMat α) T] [LawfulConvert S (SpMat α) α]
    [LawfulConvert (SpMat α) T α] (s : IndexSet) (dim degree : Nat) (hu : ∀ k, 1 ≤ k → k ≤ dim → Usable s k degree)
    (hdim : 1 ≤ dim) (l1 l2 : List (S × MBlock α)) (b : S × MBlock α)
    (hpart : Partition dim ((l1 ++ b :: l2).map (·.2.dirs)))
    (hbs : ∀ c ∈ l1 ++ b :: l2, s.s_list c.2.dirs.length degree = .ok c.2.list ∧
      IsMat c.1 c.2.list.length c.2.list.length c.2.fn)
    (hrect : s = .rectangle → 0 ∈ b.2.dirs) :
    ∃ R P : T, tensorize_mats_dirs (α := α) s ((l1 ++ b :: l2).map (·.1)) ((l1 ++ b :: l2).map (·.2.dirs)) = .ok R ∧
      project_mat s R dim b.2.dirs = .ok P ∧
      IsMat P b.2.list.length b.2.list.length
        (fun i j => b.2.fn i j * ((l1 ++ l2).map fun c => c.2.fn 0 0).prod) := by
  have hz := (hu dim hdim le_rfl).toSized
  obtain ⟨L, hL⟩ := list_exists s hz
  have hok := IterOk.of_list hz.fits' hL
  obtain ⟨R, e, h⟩ := C18_tensorize_mats (T := T) s dim degree hz (fun k h1 h2 => hu k h1 (by omega)) _ hpart hbs L hL
  have hlt : ∀ c ∈ l1 ++ b :: l2, ∀ x ∈ c.2.dirs, x < dim := by
    intro c hc x hx
    have : x ∈ ((l1 ++ b :: l2).map (·.2.dirs)).flatten :=
      List.mem_flatten.2 ⟨c.2.dirs, List.mem_map.2 ⟨c, hc, rfl⟩, hx⟩
    simpa using hpart.perm.mem_iff.1 this
  have hdirs : ∀ c ∈ l1 ++ b :: l2, Dirs s dim c.2.dirs := fun c hc =>
    have hi := hpart.inc _ (List.mem_map.2 ⟨c, hc, rfl⟩)
    dirs_of_increasing s hi.1 hi.2 (hlt c hc)
  have hcok : ∀ c ∈ l1 ++ b :: l2, IterOk s c.2.dirs.length degree c.2.list := fun c hc =>
    IterOk.of_list (hz.sub (hdirs c hc).length_pos (hdirs c hc).length_le).fits' (hbs c hc).1
  have hdisj : ∀ c ∈ l1 ++ l2, ∀ x ∈ c.2.dirs, x ∉ b.2.dirs := by
    have hn : ((l1 ++ b :: l2).map (·.2.dirs)).flatten.Nodup := hpart.perm.nodup_iff.2 List.nodup_range
    have hp : ((l1 ++ b :: l2).map (·.2.dirs)).flatten.Perm (b.2.dirs ++ ((l1 ++ l2).map (·.2.dirs)).flatten) := by
      have := ((List.perm_middle (l₁ := l1) (a := b) (l₂ := l2)).map (fun c => c.2.dirs)).flatten
      simpa using this
    rw [hp.nodup_iff, List.nodup_append] at hn
    intro c hc x hx hx'
    exact hn.2.2 x hx' x (List.mem_flatten.2 ⟨c.2.dirs, List.mem_map.2 ⟨c, hc, rfl⟩, hx⟩) rfl
  have hbm : b ∈ l1 ++ b :: l2 := by simp
  obtain ⟨Ls, P, h1, h2, h3⟩ := C16_project_mat s dim degree (hu dim hdim le_rfl) b.2.dirs (hdirs b hbm) L hL R _ h
  rw [(hbs b hbm).1] at h1
  obtain rfl : b.2.list = Ls := by simpa using h1
  refine ⟨R, P, e, h2, LawfulMat.congr h3 fun i j hi hj => ?_⟩
  have gi : b.2.list[i]? = some (b.2.list.getD i []) := by simp [hi]
  have gj : b.2.list[j]? = some (b.2.list.getD j []) := by simp [hj]
  have hin : ∀ m ∈ b.2.list, embed dim b.2.dirs m ∈ L := fun m hm =>
    (hok.mem _).2 (inSet_embed (hdirs b hbm) hrect (((hcok b hbm).mem _).1 hm))
  have mi := hin _ (List.mem_of_getElem? gi)
  have mj := hin _ (List.mem_of_getElem? gj)
  rw [entry, if_pos ⟨mi, mj⟩]
  have ei : L.getD (L.idxOf (embed dim b.2.dirs (b.2.list.getD i []))) [] = embed dim b.2.dirs (b.2.list.getD i []) := by
    rw [List.getD_eq_getElem?_getD, getElem?_idxOf' mi]; rfl
  have ej : L.getD (L.idxOf (embed dim b.2.dirs (b.2.list.getD j []))) [] = embed dim b.2.dirs (b.2.list.getD j []) := by
    rw [List.getD_eq_getElem?_getD, getElem?_idxOf' mj]; rfl
  rw [ei, ej]
  have := entry_tensor (l1 := l1.map (·.2)) (l2 := l2.map (·.2)) (b := b.2) (dim := dim) (s := s) (degree := degree)
    (by
      intro c hc
      have : c ∈ (l1 ++ b :: l2).map (·.2) := by simpa using hc
      obtain ⟨c', hc', rfl⟩ := List.mem_map.1 this
      exact hcok c' hc')
    (by
      intro c hc
      have : c ∈ (l1 ++ b :: l2).map (·.2) := by simpa using hc
      obtain ⟨c', hc', rfl⟩ := List.mem_map.1 this
      exact ⟨(hdirs c' hc').nodup, hlt c' hc'⟩)
    (by
      intro c hc
      have : c ∈ (l1 ++ l2).map (·.2) := by simpa using hc
      obtain ⟨c', hc', rfl⟩ := List.mem_map.1 this
      exact hdisj c' hc') gi gj
  simpa [Function.comp_def] using this

/-- C17 for `tensorize_vec_id`: the vector is extended by the constant 1 in the other directions. -/
theorem C17_vec_id [CommMonoidWithZero α] (s : IndexSet) (dim degree : Nat) (hu : Usable s 1 degree)
    (hz : Sized s dim degree) (L1 L : List (List Nat)) (h1 : s.s_list 1 degree = .ok L1)
    (hL : s.s_list dim degree = .ok L) (v : List α) (hv : v.length = L1.length) (dir : Nat) (hd : dir < dim) :
    ∃ r, tensorize_vec_id s v dim dir = .ok r ∧ r.length = L.length ∧
      ∀ (i : Nat) (m : List Nat), L[i]? = some m →
        r[i]? = some (if ∀ j < dim, j ≠ dir → m.getD j 0 = 0 then coef L1 v [m.getD dir 0] else 0) :=
  tensorize_vec_id_ok hu hz h1 (IterOk.of_list hz.fits' hL) hv hd

open Classical in
/-- C18 for `tensorize_mat_id`: the matrix is extended by the identity in the other directions. -/
theorem C18_mat_id {S T : Type} [CommMonoidWithZero α] [MatOps S α] [Meaning S α] [LawfulMat S α]
    [MatOps T α] [Meaning T α] [LawfulMat T α] [Convert S T] [LawfulConvert S T α] [Convert T (SpMat α)]
    [LawfulConvert T (SpMat α) α] [Convert (SpMat α) T] [LawfulConvert (SpMat α) T α] (s : IndexSet) (dim degree : Nat)
    (hz : Sized s dim degree) (hu : ∀ k, 1 ≤ k → k < dim → Usable s k degree) (L1 L : List (List Nat))
    (h1 : s.s_list 1 degree = .ok L1) (hL : s.s_list dim degree = .ok L) (A : S) (f : Nat → Nat → α)
    (hA : IsMat A L1.length L1.length f) (dir : Nat) (hd : dir < dim) :
    ∃ R : T, tensorize_mat_id (α := α) s A dim dir = .ok R ∧ IsMat R L.length L.length (fun i j =>
      if ∀ x < dim, x ≠ dir → (L.getD i []).getD x 0 = (L.getD j []).getD x 0 then
        entry L1 f [(L.getD i []).getD dir 0] [(L.getD j []).getD dir 0] else 0) :=
  tensorize_mat_id_ok hz hu h1 (IterOk.of_list hz.fits' hL) hA hd

/-- C20 for `tensorize_vec_id` (partial: for the rectangle only direction 0): projecting back gives the vector. -/
theorem C20_vec_id_partial [CommMonoidWithZero α] (s : IndexSet) (dim degree : Nat) (hu : Usable s dim degree)
    (hu1 : Usable s 1 degree) (L1 : List (List Nat)) (h1 : s.s_list 1 degree = .ok L1) (v : List α)
    (hv : v.length = L1.length) (dir : Nat) (hd : dir < dim) (hrect : s = .rectangle → dir = 0) :
    ∃ r, tensorize_vec_id s v dim dir = .ok r ∧ project_vec s r dim [dir] = .ok v := by
  obtain ⟨L, hL⟩ := list_exists s hu.toSized
  obtain ⟨r, e, hl, h⟩ := C17_vec_id s dim degree hu1 hu.toSized L1 L h1 hL v hv dir hd
  refine ⟨r, e, ?_⟩
  have hdirs := dirs_single s hd
  obtain ⟨Ls, p, k1, k2, k3, k4⟩ := C15_project_vec s dim degree hu [dir] hdirs L hL r hl
  rw [List.length_singleton, h1] at k1
  obtain rfl : L1 = Ls := by simpa using k1
  rw [k2]
  congr 1
  have hok := IterOk.of_list hu.toSized.fits' hL
  have hok1 := IterOk.of_list hu1.toSized.fits' h1
  apply List.ext_getElem?
  intro k
  by_cases hk : k < L1.length
  · have hm := List.getElem?_eq_getElem hk
    have hin := (hok1.mem _).1 (List.mem_of_getElem? hm)
    have hlen := inSet_length hin
    obtain ⟨x, hx⟩ := List.length_eq_one_iff.1 hlen
    rw [hx] at hm hin
    have hmem := (hok.mem _).2 (inSet_embed hdirs (fun e => by simp [hrect e]) hin)
    have hat : ∀ j < dim, (embed dim [dir] [x]).getD j 0 = if j = dir then x else 0 := by
      intro j hj
      rw [embed_getD hj, at']
      by_cases hjd : j = dir
      · subst hjd; simp
      · rw [if_neg hjd, idxOf_cons_ne' (fun e => hjd e.symm)]; simp
    have hr := h _ _ (getElem?_idxOf' hmem)
    rw [if_pos (fun j hj hne => by rw [hat j hj, if_neg hne]), hat dir hd, if_pos rfl,
      coef_of_getElem? hok1.nodup hm] at hr
    rw [k4 k _ hm, coef, List.getD_eq_getElem?_getD, hr, Option.getD_some]
    simp [show k < v.length by omega]
  · rw [List.getElem?_eq_none (by omega), List.getElem?_eq_none (by omega)]

/-- C20, counterexample for the rectangle: extending a vector from direction 1 to two dimensions and projecting back on
direction 1 loses the coefficients of degree above `degree / 2`. -/
theorem C20_rectangle_loses :
    ∃ (v r p : List Int), IndexSet.rectangle.s_size 1 2 = .ok v.length ∧
      tensorize_vec_id .rectangle v 2 1 = .ok r ∧ project_vec .rectangle r 2 [1] = .ok p ∧ p ≠ v := by
  have hu := usable_small .rectangle (dim := 2) (degree := 2) (by omega) (by omega) (by omega)
  have hu1 := usable_small .rectangle (dim := 1) (degree := 2) (by omega) (by omega) (by omega)
  obtain ⟨L, hL⟩ := list_exists _ hu.toSized
  obtain ⟨L1, h1⟩ := list_exists _ hu1.toSized
  have hok := IterOk.of_list hu.toSized.fits' hL
  have hok1 := IterOk.of_list hu1.toSized.fits' h1
  obtain ⟨r, e, hl, -⟩ := C17_vec_id .rectangle 2 2 hu1 hu.toSized L1 L h1 hL (L1.map fun _ => (1 : Int)) (by simp) 1 (by omega)
  obtain ⟨Ls, p, k1, k2, k3, k4⟩ := C15_project_vec .rectangle 2 2 hu [1] (dirs_single _ (by omega)) L hL r hl
  rw [List.length_singleton, h1] at k1
  obtain rfl : L1 = Ls := by simpa using k1
  refine ⟨_, r, p, ?_, e, k2, fun hc => ?_⟩
  · rw [List.length_map]
    exact hok1.size (by omega) (by rw [hok1.length]; exact hu1.toSized.card_lt)
  · have hmem : [2] ∈ L1 := (hok1.mem _).2 ⟨rfl, by simp⟩
    have hk := k4 _ _ (getElem?_idxOf' hmem)
    have hlt := List.idxOf_lt_length_of_mem hmem
    rw [hc, List.getElem?_map, getElem?_idxOf' hmem, coef_of_notMem (by omega)] at hk
    · simp at hk
    · intro hin
      have := ((hok.mem _).1 hin).2 1 (by simp [embed])
      simp [embed, at'] at this

end Hermipy.Props
