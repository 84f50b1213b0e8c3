import Verif.Model.Transform

/-! # Model of `cpp/src/hermite/discretize.cpp`

The type of the numbers is a parameter, so that sums and products may round. -/

namespace Hermipy

/-- Reading an element of a buffer obtained from `malloc`: uninitialised elements are `none`. -/
def rdInit {α : Type} (v : List (Option α)) (i : Nat) : Out α := do
  match ← rd v i with
  | some x => .ok x
  | none => .ub

/-- `map_point`. discretize.cpp:33-48. -/
def map_point {α : Type} [Add α] [Mul α] (translation : List α) (dilation : List (List α)) (node mapped_node : List (Option α)) :
    Out (List (Option α)) :=
  let dim := translation.length
  forRange dim mapped_node fun i mapped_node => do
    let t ← rd translation i
    let mapped_node ← wr mapped_node i (some t)
    forRange dim mapped_node fun j mapped_node => do
      let old ← rdInit mapped_node i
      let row ← rd dilation i
      let d ← rd row j
      let x ← rdInit node j
      wr mapped_node i (some (old + d * x))

/-- The body of the loop over the grid. discretize.cpp:74-79. The function gets a pointer to `mapped_node`; it is taken to read all of
it. -/
def discretizeStep {α : Type} [Add α] [Mul α] (func : List α → Out α) (nodes : List (List α)) (translation : List α) (dilation : List (List α))
    (i : Nat) (p : IVec) (st : List (Option α) × List (Option α) × List α) :
    Out (List (Option α) × List (Option α) × List α) := do
  let dim := nodes.length
  let node ← forRange dim st.1 fun j node => do
    let ns ← rd nodes j
    let pj ← rd p j
    let x ← rd ns pj
    wr node j (some x)
  let mapped_node ← map_point translation dilation node st.2.1
  let args ← (List.range dim).mapM fun k => rdInit mapped_node k
  let y ← func args
  let result ← wr st.2.2 i y
  .ok (node, mapped_node, result)

/-- `discretize`. discretize.cpp:50-86. -/
def discretize {α : Type} [Add α] [Mul α] [Zero α] (func : List α → Out α) (nodes : List (List α)) (translation : List α) (dilation : List (List α)) :
    Out (List α) := do
  let dim := nodes.length
  let n_points := nodes.map List.length
  let n_points_tot := n_points.foldl (fun t n => wrap32 (t * n)) 1
  let r ← gridLoop n_points_tot (mkGrid n_points)
    (List.replicate dim none, List.replicate dim none, List.replicate n_points_tot (0 : α))
    (discretizeStep func nodes translation dilation)
  .ok r.2.2.2

/-- The shared objects in the temporary directory: for each file name, the function it contains. The name is a number, the hash of
the body. -/
abbrev SoFiles (F : Type) := Nat → Option F

/-- `intern_function`. discretize.cpp:88-110. `hash` is `std::hash<std::string>`; `compile body` is the function of the shared object
the compiler writes for this body, `none` if it fails (a failure is only reported on the standard output). -/
def intern_function {F : Type} (hash : String → Nat) (compile : String → Option F) (files : SoFiles F) (body : String) : SoFiles F :=
  match files (hash body) with
  | some _ => files
  | none =>
    match compile body with
    | some f => fun n => if n = hash body then some f else files n
    | none => files

/-- `discretize_from_string`. discretize.cpp:112-126. Without a shared object, `dlopen` returns a null pointer and the call is made
through whatever `dlsym` returns for it: undefined. -/
noncomputable def discretize_from_string (hash : String → Nat) (compile : String → Option (List ℝ → Out ℝ))
    (files : SoFiles (List ℝ → Out ℝ)) (body : String) (nodes : List (List ℝ)) (translation : List ℝ) (dilation : List (List ℝ)) :
    SoFiles (List ℝ → Out ℝ) × Out (List ℝ) :=
  let files := intern_function hash compile files body
  match files (hash body) with
  | some func => (files, discretize func nodes translation dilation)
  | none => (files, .ub)

end Hermipy
