import Verif.Model.Lib
import Mathlib.Data.Nat.Choose.Basic

/-!
# Model of `cpp/src/hermite/iterators.cpp` and `iterators.hpp`

Multi-index entries, loop counters and degrees are natural numbers. The C++ values are 32-bit; every entry written by an
increment is at most `degree + 1`, so the models of the increments are exact for `degree < 2^31`.
Where 32-bit effects can occur for smaller parameters (sizes, indices, products in `cross_nc`), they are modelled.
`dim = 0` makes `dim - 1` wrap and the following accesses leave the vector: outcome `ub`.
-/

namespace Hermipy

/-! ## Triangle -/

/-- Loop of `Triangle_iterator::s_increment`, iterators.cpp:225-232: `k` iterations left, counter `i`.
Returns the final counter and the updated vector. -/
def Triangle.scan (m : IVec) : (k i : Nat) → Out (Nat × IVec)
  | 0, i => .ok (i, m)
  | k + 1, i => do
    let x ← rd m (i + 1)
    if x ≠ 0 then
      let m' ← wr m (i + 1) (x - 1)
      .ok (i, m')
    else Triangle.scan m k (i + 1)

/-- `Triangle_iterator::s_increment`. iterators.cpp:222-245. Returns (full?, updated multi-index). -/
def Triangle.s_increment (m : IVec) (degree : Nat) : Out (Bool × IVec) :=
  if m.length = 0 then .ub
  else do
    let dim := m.length
    let (i, m) ← Triangle.scan m (dim - 1) 0
    let m0 ← rd m 0
    if i = dim - 1 ∧ m0 = degree then .ok (true, m)
    else
      let m ← wr m i (1 + m0)
      if i > 0 then
        let m ← wr m 0 0
        .ok (false, m)
      else .ok (false, m)

/-- Loop of `Triangle_iterator::s_index`, iterators.cpp:269-276, from position `i` with running `sum` and `result`. -/
def Triangle.indexLoop : (i sum result : Nat) → IVec → Out Nat
  | _, _, result, [] => .ok result
  | i, sum, result, x :: xs =>
    let sum := sum + x
    if sum > 0 then do
      let b ← toU32 (Nat.choose (i + sum) (i + 1))
      Triangle.indexLoop (i + 1) sum (wrap32 (result + b)) xs
    else Triangle.indexLoop (i + 1) sum result xs

/-- `Triangle_iterator::s_index`. iterators.cpp:265-278. -/
def Triangle.s_index (m : IVec) : Out Nat := Triangle.indexLoop 0 0 0 m

/-- `Triangle_iterator::s_size`. iterators.cpp:280-284. The double-valued binomial is converted to `u_int`. -/
def Triangle.s_size (dim degree : Nat) : Out Nat := toU32 (Nat.choose (degree + dim) dim)

/-! ## Cube -/

/-- First loop of `Cube_iterator::s_increment` and of `s_index`, iterators.cpp:113-120 and 172-179:
maximum and the last position attaining it. -/
def Cube.scanMax : IVec → (i max ind : Nat) → Nat × Nat
  | [], _, max, ind => (max, ind)
  | x :: xs, i, max, ind =>
    if x ≥ max then Cube.scanMax xs (i + 1) x i else Cube.scanMax xs (i + 1) max ind

/-- Second loop of `Cube_iterator::s_increment`, iterators.cpp:123-135, from position `i`.
Returns (returned early?, updated tail). -/
def Cube.bump (max ind : Nat) : Nat → IVec → Bool × IVec
  | _, [] => (false, [])
  | i, x :: xs =>
    if x + 1 < max + (if i < ind then 1 else 0) then (true, (x + 1) :: xs)
    else
      let r := Cube.bump max ind (i + 1) xs
      (r.1, (if i ≠ ind then 0 else x) :: r.2)

/-- `Cube_iterator::s_increment`. iterators.cpp:106-150. -/
def Cube.s_increment (m : IVec) (degree : Nat) : Out (Bool × IVec) :=
  let dim := m.length
  let mi := Cube.scanMax m 0 0 0
  let max := mi.1
  let ind := mi.2
  let r := Cube.bump max ind 0 m
  if r.1 then .ok (false, r.2)
  else if dim = 0 then .ub
  else if ind = dim - 1 then
    if max ≥ degree then .ok (true, r.2)
    else do
      let m ← wr r.2 ind 0
      let m ← wr m 0 (max + 1)
      .ok (false, m)
  else do
    let m ← wr r.2 ind 0
    let m ← wr m (ind + 1) max
    .ok (false, m)

/-- Middle loop of `Cube_iterator::s_index`, iterators.cpp:182-183: `k` iterations left, counter `i`.
The sum is a `double` converted back to `u_int`. -/
def Cube.blockLoop (max dim : Nat) : (k i result : Nat) → Out Nat
  | 0, _, result => .ok result
  | k + 1, i, result => do
    let r ← toU32 (result + max ^ (dim - i - 1) * (max + 1) ^ i)
    Cube.blockLoop max dim k (i + 1) r

/-- Last loop of `Cube_iterator::s_index`, iterators.cpp:187-194 (unsigned arithmetic, wrapping). -/
def Cube.digitLoop (max ind : Nat) : (i result factor : Nat) → IVec → Nat
  | _, result, _, [] => result
  | i, result, factor, x :: xs =>
    if i = ind then Cube.digitLoop max ind (i + 1) result factor xs
    else Cube.digitLoop max ind (i + 1) (wrap32 (result + factor * x))
      (wrap32 (factor * (if i < ind then max + 1 else max))) xs

/-- `u_int result = pow(max, dim) - 1`, iterators.cpp:181. A negative `double` converted to `u_int` is undefined. -/
def Cube.startIndex (max dim : Nat) : Out Nat :=
  if max ^ dim = 0 then .ub else toU32 (max ^ dim - 1)

/-- `Cube_iterator::s_index`. iterators.cpp:166-197. -/
def Cube.s_index (m : IVec) : Out Nat := do
  let dim := m.length
  let mi := Cube.scanMax m 0 0 0
  let max := mi.1
  let ind := mi.2
  let r ← Cube.startIndex max dim
  let r ← Cube.blockLoop max dim ind 0 r
  .ok (Cube.digitLoop max ind 0 (wrap32 (r + 1)) 1 m)

/-- `Cube_iterator::s_size`. iterators.cpp:199-202. -/
def Cube.s_size (dim degree : Nat) : Out Nat := toU32 ((degree + 1) ^ dim)

/-! ## Cross -/

/-- First loop of `Cross_iterator::s_increment`, iterators.cpp:332-342: binary counter on the entries at most one.
Returns (returned early?, updated tail). -/
def Cross.bits : IVec → Bool × IVec
  | [] => (false, [])
  | x :: xs =>
    if x = 1 then
      let r := Cross.bits xs
      (r.1, 0 :: r.2)
    else if x = 0 then (true, 1 :: xs)
    else
      let r := Cross.bits xs
      (r.1, x :: r.2)

/-- `MAX(1, x)`, iterators.cpp:29. -/
def max1 (x : Nat) : Nat := if 1 > x then 1 else x

/-- Search for the smallest factor, iterators.cpp:356-363: `k` iterations left, candidate `f`. `0` if none (line 354). -/
def Cross.findFactor (product : Nat) : (k f : Nat) → Nat
  | 0, _ => 0
  | k + 1, f => if product % f = 0 then f else Cross.findFactor product k (f + 1)

/-- Second loop of `Cross_iterator::s_increment`, iterators.cpp:349-367: `k` iterations left, counter `i`.
A zero factor would divide by zero at line 365: undefined. -/
def Cross.scan (m : IVec) : (k i : Nat) → Out (Nat × IVec)
  | 0, i => .ok (i, m)
  | k + 1, i => do
    let x ← rd m (i + 1)
    if x = 0 then Cross.scan m k (i + 1)
    else
      let m0 ← rd m 0
      let product := max1 m0 * x
      let factor := Cross.findFactor product (product - max1 m0) (max1 m0 + 1)
      let m1 ← wr m i factor
      if factor = product then
        let m2 ← wr m1 (i + 1) 0
        .ok (i, m2)
      else if factor = 0 then .ub
      else
        let m2 ← wr m1 (i + 1) (product / factor)
        .ok (i, m2)

/-- `Cross_iterator::s_increment`. iterators.cpp:326-380. The `assert(degree > 0)` is compiled out (`-DNDEBUG`). -/
def Cross.s_increment (m : IVec) (degree : Nat) : Out (Bool × IVec) :=
  let r := Cross.bits m
  if r.1 then .ok (false, r.2)
  else if degree = 1 then .ok (true, r.2)
  else if m.length = 0 then .ub
  else do
    let dim := m.length
    let (i, m) ← Cross.scan r.2 (dim - 1) 0
    if i = dim - 1 then
      let m0 ← rd m 0
      if m0 = degree then .ok (true, m)
      else
        let m ← wr m i (1 + max1 m0)
        if i > 0 then
          let m ← wr m 0 0
          .ok (false, m)
        else .ok (false, m)
    else if i > 0 then
      let m ← wr m 0 0
      .ok (false, m)
    else .ok (false, m)

/-! ## Cross, non-consistent ordering -/

/-- Product loop of `Cross_iterator_nc::s_increment`, iterators.cpp:445-447, in wrapping 32-bit arithmetic. -/
def CrossNc.product (m : IVec) : Nat := m.foldl (fun p x => wrap32 (p * max1 x)) 1

/-- `do ... while` loop of `Cross_iterator_nc::s_increment`, iterators.cpp:437-449. -/
def CrossNc.search (degree dim : Nat) (m : IVec) : Out IVec := do
  let (triangle_full, m) ← Triangle.s_increment m (degree + dim - 1)
  if triangle_full then .exit 1
  else if CrossNc.product m > degree then CrossNc.search degree dim m
  else .ok m
partial_fixpoint

/-- `Cross_iterator_nc::s_increment`. iterators.cpp:424-451. -/
def CrossNc.s_increment (m : IVec) (degree : Nat) : Out (Bool × IVec) := do
  let degree := max1 degree
  let dim := m.length
  let m0 ← rd m 0
  if m0 = degree ∧ m.tail.all (· = 1) then .ok (true, m)
  else
    let m' ← CrossNc.search degree dim m
    .ok (false, m')

/-! ## Rectangle -/

/-- `factors`, iterators.cpp:496-500 and 573-575. -/
def Rectangle.factors (dim : Nat) : IVec := (List.range dim).map (fun i => if i = 0 then 1 else 2)

/-- First loop of `Rectangle_iterator::s_increment`, iterators.cpp:502-509 (arguments: factors and entries in step). -/
def Rectangle.scanMax : IVec → IVec → (i max ind : Nat) → Nat × Nat
  | f :: fs, x :: xs, i, max, ind =>
    if x * f ≥ max then Rectangle.scanMax fs xs (i + 1) (x * f) i
    else Rectangle.scanMax fs xs (i + 1) max ind
  | _, _, _, max, ind => (max, ind)

/-- Second loop of `Rectangle_iterator::s_increment`, iterators.cpp:511-523. -/
def Rectangle.bump (max ind : Nat) : IVec → Nat → IVec → Bool × IVec
  | f :: fs, i, x :: xs =>
    if (x + 1) * f < max + (if i < ind then 1 else 0) then (true, (x + 1) :: xs)
    else
      let r := Rectangle.bump max ind fs (i + 1) xs
      (r.1, (if i ≠ ind then 0 else x) :: r.2)
  | _, _, _ => (false, [])

/-- `while (next < dim && max % factors[next] != 0) next++`, iterators.cpp:538-540: `k` positions left. -/
def Rectangle.findNext (factors : IVec) (max : Nat) : (k next : Nat) → Out Nat
  | 0, next => .ok next
  | k + 1, next => do
    let f ← rd factors next
    if max % f ≠ 0 then Rectangle.findNext factors max k (next + 1) else .ok next

/-- `Rectangle_iterator::s_increment`. iterators.cpp:489-555. -/
def Rectangle.s_increment (m : IVec) (degree : Nat) : Out (Bool × IVec) :=
  let dim := m.length
  let factors := Rectangle.factors dim
  let mi := Rectangle.scanMax factors m 0 0 0
  let max := mi.1
  let ind := mi.2
  let r := Rectangle.bump max ind factors 0 m
  if r.1 then .ok (false, r.2)
  else if dim = 0 then .ub
  else if ind = dim - 1 then
    if max ≥ degree then .ok (true, r.2)
    else do
      let m ← wr r.2 ind 0
      let m ← wr m 0 (max + 1)
      .ok (false, m)
  else do
    let m ← wr r.2 ind 0
    let next ← Rectangle.findNext factors max (dim - (ind + 1)) (ind + 1)
    if next < dim then
      let f ← rd factors next
      let m ← wr m ind 0
      let m ← wr m next (max / f)
      .ok (false, m)
    else if max = degree then .ok (true, m)
    else
      let m ← wr m ind 0
      let m ← wr m 0 (max + 1)
      .ok (false, m)

/-- `Rectangle_iterator::s_size`. iterators.cpp:571-582 (unsigned, wrapping). -/
def Rectangle.s_size (dim degree : Nat) : Out Nat :=
  .ok ((Rectangle.factors dim).foldl (fun r f => wrap32 (r * (1 + degree / f))) 1)

/-! ## The iterator objects -/

/-- `std::unordered_map<std::string, u_int>` (iterators.hpp:94) as a finite map. -/
abbrev HashTable := String → Option Nat

/-- `hash_table.insert(pair)`: does not overwrite an existing key. -/
def HashTable.insert (t : HashTable) (k : String) (v : Nat) : HashTable :=
  fun k' => if k' = k then some ((t k).getD v) else t k'

/-- State of a `Multi_index_iterator`. iterators.hpp:91-127, with the fields of `Vector_iterator` (33-38). -/
structure Iter where
  dim : Nat
  list : List IVec
  hash_table : HashTable
  index_list : Nat
  multi_index : IVec
  full : Bool

/-- The `do ... while` loop of every constructor: iterators.cpp:157-163 (cube), 256-262 (triangle), 392-398 (cross),
458-464 (cross_nc), 562-568 (rectangle). `inc` is the class's `s_increment` at the given degree. -/
def ctorLoop (inc : IVec → Out (Bool × IVec)) (m : IVec) (list : List IVec) (table : HashTable) (ind : Nat) :
    Out (List IVec × HashTable) := do
  let list := list ++ [m]
  let table := table.insert (hash_print m) ind
  let (full, m') ← inc m
  if full then .ok (list, table) else ctorLoop inc m' list table (ind + 1)
partial_fixpoint

/-- Constructors: iterators.cpp:152-164, 247-263, 382-399, 453-465, 557-569; members initialised as in
iterators.hpp:41-42 and 98. -/
def mkIter (inc : IVec → Out (Bool × IVec)) (dim : Nat) : Out Iter := do
  let (list, table) ← ctorLoop inc (List.replicate dim 0) [] (fun _ => none) 0
  .ok { dim := dim, list := list, hash_table := table, index_list := 0,
        multi_index := List.replicate dim 0, full := false }

/-- `Multi_index_iterator::has`. iterators.hpp:113-117. -/
def Iter.has (it : Iter) (m : IVec) : Bool := (it.hash_table (hash_print m)).isSome

/-- `Multi_index_iterator::index`. iterators.cpp:82-92 (`at` throws `std::out_of_range`). -/
def Iter.index (it : Iter) (m : IVec) : Out Nat :=
  match it.hash_table (hash_print m) with
  | some k => .ok k
  | none => .throws

/-- `Multi_index_iterator::increment`. iterators.cpp:94-103. (`list.size() - 1` wraps on an empty list; a constructed
iterator has a non-empty list.) -/
def Iter.increment (it : Iter) : Out Iter :=
  if it.list.length ≠ 0 ∧ it.index_list = it.list.length - 1 then .ok { it with full := true }
  else do
    let m ← rd it.list (it.index_list + 1)
    .ok { it with index_list := it.index_list + 1, multi_index := m }

/-- `Multi_index_iterator::reset` with `Vector_iterator::reset`. iterators.hpp:60-67, 119-123. -/
def Iter.reset (it : Iter) : Iter :=
  { it with full := false, multi_index := it.multi_index.map (fun _ => 0), index_list := 0 }

/-- Loop of every `s_list`: iterators.cpp:207-210, 289-292, 404-407, 470-473, 587-588. -/
def listLoop (it : Iter) (result : List IVec) : Out (List IVec) :=
  if it.full then .ok result
  else do
    let it' ← it.increment
    listLoop it' (result ++ [it.multi_index])
partial_fixpoint

/-- The index sets offered by the library (module.cpp, core.py:283-346). -/
inductive IndexSet where
  | triangle | cube | cross | cross_nc | rectangle
deriving DecidableEq, Repr

/-- `s_increment` of the class of an index set. -/
def IndexSet.s_increment : IndexSet → IVec → Nat → Out (Bool × IVec)
  | .triangle => Triangle.s_increment
  | .cube => Cube.s_increment
  | .cross => Cross.s_increment
  | .cross_nc => CrossNc.s_increment
  | .rectangle => Rectangle.s_increment

/-- Construction of the iterator of an index set (`Iterator it(dim, degree)`). -/
def IndexSet.iter (s : IndexSet) (dim degree : Nat) : Out Iter := mkIter (fun m => s.s_increment m degree) dim

/-- `s_list` of an index set: iterators.cpp:204-212, 286-294, 401-409, 467-475, 584-590; core.py `iterator_list_indices`. -/
def IndexSet.s_list (s : IndexSet) (dim degree : Nat) : Out (List IVec) := do
  let it ← s.iter dim degree
  listLoop it []

/-- `s_size` of an index set; for the crosses, iterators.cpp:418-421 and 483-486, the size of the constructed list
(iterators.hpp:108-111, converted to 32 bits); core.py `iterator_size`. -/
def IndexSet.s_size : IndexSet → Nat → Nat → Out Nat
  | .triangle, dim, degree => Triangle.s_size dim degree
  | .cube, dim, degree => Cube.s_size dim degree
  | .rectangle, dim, degree => Rectangle.s_size dim degree
  | .cross, dim, degree => do
    let it ← IndexSet.cross.iter dim degree
    .ok (wrap32 it.list.length)
  | .cross_nc, dim, degree => do
    let it ← IndexSet.cross_nc.iter dim degree
    .ok (wrap32 it.list.length)

/-- `DEGREE_BISSECT_MAX`. iterators.cpp:30. -/
def DEGREE_BISSECT_MAX : Nat := 250

/-- `s_get_degree` of an index set: iterators.cpp:214-218, 296-300, 411-416 (`n_polys - 1` wraps at 0, and the `assert` is
compiled out), 477-481, 592-596; core.py `iterator_get_degree`. -/
def IndexSet.s_get_degree : IndexSet → Nat → Nat → Out Nat
  | .cross, dim, n_polys => do
    let it ← IndexSet.cross.iter dim DEGREE_BISSECT_MAX
    if n_polys = 0 then .ub
    else
      let m ← rd it.list (n_polys - 1)
      rd m 0
  | s, dim, n_polys => pos_bissect n_polys (fun degree => s.s_size dim degree) DEGREE_BISSECT_MAX

/-! ## Grid iterator -/

/-- State of a `Grid_iterator`. iterators.hpp:73-88. -/
structure GridIter where
  upper_bounds : IVec
  multi_index : IVec
  full : Bool

/-- Constructor. iterators.hpp:86-87, 41-42. -/
def mkGrid (upper_bounds : IVec) : GridIter :=
  { upper_bounds := upper_bounds, multi_index := List.replicate upper_bounds.length 0, full := false }

/-- `n - 1` in `u_int`. -/
def pred32 (n : Nat) : Nat := if n = 0 then u32 - 1 else n - 1

/-- The `while` loop of `Grid_iterator::increment`, iterators.cpp:53-57, counter `i` counting down. -/
def Grid.carry (ub : IVec) : (i : Nat) → IVec → Out (Nat × IVec)
  | 0, m => do
    let _ ← rd m 0
    let _ ← rd ub 0
    .ok (0, m)
  | i + 1, m => do
    let x ← rd m (i + 1)
    let b ← rd ub (i + 1)
    if x = pred32 b then
      let m ← wr m (i + 1) 0
      Grid.carry ub i m
    else .ok (i + 1, m)

/-- `Grid_iterator::increment`. iterators.cpp:50-66. -/
def GridIter.increment (g : GridIter) : Out GridIter :=
  if g.upper_bounds.length = 0 then .ub
  else do
    let (i, m) ← Grid.carry g.upper_bounds (g.upper_bounds.length - 1) g.multi_index
    let m0 ← rd m 0
    let b0 ← rd g.upper_bounds 0
    if i = 0 ∧ m0 = pred32 b0 then .ok { g with multi_index := m, full := true }
    else
      let x ← rd m i
      let m ← wr m i (wrap32 (x + 1))
      .ok { g with multi_index := m }

/-- Loop of `Grid_iterator::list`, iterators.cpp:71-74. -/
def gridListLoop (g : GridIter) (result : List IVec) : Out (List IVec) :=
  if g.full then .ok result
  else do
    let g' ← g.increment
    gridListLoop g' (result ++ [g.multi_index])
partial_fixpoint

/-- `Grid_iterator::list`. iterators.cpp:68-76; Python `list_cube_indices` (module.cpp). -/
def Grid.list (upper_bounds : IVec) : Out (List IVec) := gridListLoop (mkGrid upper_bounds) []

/-- Loop of `Grid_iterator::index`, iterators.cpp:41-46: positions are visited from the last to the first, so the two
vectors are given reversed. -/
def Grid.indexLoop : IVec → IVec → (result factor : Nat) → Nat
  | x :: xs, b :: bs, result, factor =>
    Grid.indexLoop xs bs (wrap32 (result + factor * x)) (wrap32 (factor * b))
  | _, _, result, _ => result

/-- `Grid_iterator::index`. iterators.cpp:36-48 (for `m` of the same length as the bounds). -/
def Grid.index (upper_bounds m : IVec) : Nat := Grid.indexLoop m.reverse upper_bounds.reverse 0 1

end Hermipy
