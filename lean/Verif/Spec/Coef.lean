import Verif.Spec.IndexSets

/-!
# Specification vocabulary for coefficient vectors

A coefficient vector is attached to a listing of multi-indices. These definitions say, without any enumeration, which
coefficient belongs to a multi-index, and how multi-indices along some directions relate to full ones.
-/

namespace Hermipy.Spec

/-- The coefficient of `v` at the multi-index `m` for the listing `L`; zero when `m` is not listed. -/
def coef {α : Type} [Zero α] (L : List (List Nat)) (v : List α) (m : List Nat) : α := v.getD (L.idxOf m) 0

/-- The entry of the matrix `f` at the multi-indices `m`, `n` for the listing `L`; zero outside the listing. -/
def entry {α : Type} [Zero α] (L : List (List Nat)) (f : Nat → Nat → α) (m n : List Nat) : α :=
  if m ∈ L ∧ n ∈ L then f (L.idxOf m) (L.idxOf n) else 0

/-- The entries of `m` at the positions `dirs`. -/
def restrict (dirs : List Nat) (m : List Nat) : List Nat := dirs.map fun d => m.getD d 0

/-- The value at position `j` of the multi-index that has the entries `sub` at the positions `dirs` and zeros elsewhere. -/
def at' (dirs sub : List Nat) (j : Nat) : Nat := sub.getD (dirs.idxOf j) 0

/-- The multi-index in dimension `dim` that has the entries `sub` at the positions `dirs` and zeros elsewhere. -/
def embed (dim : Nat) (dirs sub : List Nat) : List Nat := (List.range dim).map (at' dirs sub)

/-- A list of directions that can be projected on or tensorized along: no direction twice, each below `dim`, at least one;
for the rectangle, direction 0 may only come first. Increasing lists satisfy this. -/
structure Dirs (s : IndexSet) (dim : Nat) (dirs : List Nat) : Prop where
  ne_nil : dirs ≠ []
  nodup : dirs.Nodup
  lt : ∀ d ∈ dirs, d < dim
  first : s = .rectangle → ∀ i (h : i < dirs.length), dirs[i] = 0 → i = 0

/-- The number of coefficients in dimension `dim` and degree `degree` fits in 32 bits; for `cross_nc`, so do the products
tested during the enumeration. -/
structure Sized (s : IndexSet) (dim degree : Nat) : Prop where
  dim_pos : 1 ≤ dim
  fits : s = .cross_nc → ∀ m : List Nat, m.length = dim → m.sum ≤ max 1 degree + dim - 1 → (m.map (max 1)).prod < 2 ^ 32
  small : ∃ L, s.s_list dim degree = .ok L ∧ L.length < 2 ^ 32

/-- In addition, the library recovers a degree with the same index sets from the number of coefficients. -/
structure Usable (s : IndexSet) (dim degree : Nat) : Prop extends Sized s dim degree where
  readable : ∃ L d, s.s_list dim degree = .ok L ∧ s.s_get_degree dim L.length = .ok d ∧
    ∀ k m, InSet s k d m ↔ InSet s k degree m

/-- The same for vectors on any number of directions up to `dim`. -/
def UsableTo (s : IndexSet) (dim degree : Nat) : Prop := ∀ n, 1 ≤ n → n ≤ dim → Usable s n degree

/-- One factor of a tensor product: the directions it lives on, the listing of its multi-indices, its coefficients. -/
structure Block (α : Type) where
  dirs : List Nat
  list : List (List Nat)
  vec : List α

/-- The block is a coefficient vector of degree `degree` for the index set `s`. -/
def Block.Ok {α : Type} (s : IndexSet) (degree : Nat) (b : Block α) : Prop :=
  s.s_list b.dirs.length degree = .ok b.list ∧ b.vec.length = b.list.length

/-- The coefficient of the block at the entries of `m` along its directions. -/
def Block.coef {α : Type} [Zero α] (b : Block α) (m : List Nat) : α := Spec.coef b.list b.vec (restrict b.dirs m)

/-- One matrix factor of a tensor product: its directions, the listing of its multi-indices, its entries. -/
structure MBlock (α : Type) where
  dirs : List Nat
  list : List (List Nat)
  fn : Nat → Nat → α

/-- The entry of the factor at the entries of `m` and `n` along its directions. -/
def MBlock.entry {α : Type} [Zero α] (b : MBlock α) (m n : List Nat) : α :=
  Spec.entry b.list b.fn (restrict b.dirs m) (restrict b.dirs n)

/-- The directions of the blocks are increasing within each block, and together they are `0, ..., dim - 1`, each once. -/
structure Partition (dim : Nat) (blocks : List (List Nat)) : Prop where
  inc : ∀ d ∈ blocks, d ≠ [] ∧ d.Pairwise (· < ·)
  perm : blocks.flatten.Perm (List.range dim)

/-- `D` lists the directions of exactly one of the two lists, `K` those of both, in increasing order. -/
structure SharedFree (dirs1 dirs2 D K : List Nat) : Prop where
  incD : D.Pairwise (· < ·)
  incK : K.Pairwise (· < ·)
  memD : ∀ x, x ∈ D ↔ (x ∈ dirs1 ∧ x ∉ dirs2) ∨ (x ∈ dirs2 ∧ x ∉ dirs1)
  memK : ∀ x, x ∈ K ↔ x ∈ dirs1 ∧ x ∈ dirs2

/-- The entry in direction `x` of the multi-index with entries `m` along `D` and `k` along `K`. -/
def joint (D m K k : List Nat) (x : Nat) : Nat := if x ∈ D then at' D m x else at' K k x

/-- `L` lists the multi-indices along the directions `d`; with no direction, there is one empty multi-index. -/
def Listing (s : IndexSet) (degree : Nat) (d : List Nat) (L : List (List Nat)) : Prop :=
  (d = [] ∧ L = [[]]) ∨ (d ≠ [] ∧ s.s_list d.length degree = .ok L)

end Hermipy.Spec
