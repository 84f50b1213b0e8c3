import Verif.Lemmas.Discretize
import Mathlib.Data.Fintype.Pigeonhole
import Mathlib.Data.Fintype.EquivFin
import Verif.Lemmas.Small

/-! # Properties C45, C46: discretisation -/

namespace Hermipy.Props

open Hermipy.Spec

/-- C45. The values of the function at the mapped grid points, in the order of the grid. -/
theorem C45_discretize (func : List ℝ → Out ℝ) (g : List ℝ → ℝ) (nodes : List (List ℝ)) (translation : List ℝ)
    (dilation : List (List ℝ)) (h1 : nodes ≠ []) (hsm : (gridPoints nodes).length < 2 ^ 32)
    (ht : translation.length = nodes.length) (hD : dilation.length = nodes.length) (hr : ∀ r ∈ dilation, r.length = nodes.length)
    (hf : ∀ p ∈ gridPoints nodes, func (affine translation dilation p) = .ok (g (affine translation dilation p))) :
    discretize func nodes translation dilation = .ok ((gridPoints nodes).map fun p => g (affine translation dilation p)) :=
  discretize_ok h1 hsm ht hD hr hf

/-- The order is the one `transform` reads: the transform of the discretised function is the quadrature of the function itself. -/
theorem C45_transform (func : List ℝ → Out ℝ) (g : List ℝ → ℝ) (translation : List ℝ) (dilation : List (List ℝ)) (slack : Nat)
    (s : IndexSet) (degree : Nat) (nodes weights : List (List ℝ)) (fourier : List Nat) (hz : Sized s nodes.length degree)
    (hg : Grid nodes fourier) (hd : DegreeOk slack s degree fourier) (hw : weights.map List.length = nodes.map List.length)
    (ht : translation.length = nodes.length) (hD : dilation.length = nodes.length) (hr : ∀ r ∈ dilation, r.length = nodes.length)
    (hf : ∀ p ∈ gridPoints nodes, func (affine translation dilation p) = .ok (g (affine translation dilation p)))
    (L : List (List Nat)) (hL : s.s_list nodes.length degree = .ok L) :
    ∃ v, discretize func nodes translation dilation = .ok v ∧ transform slack s degree v nodes weights fourier true =
      .ok (L.map fun m => quadrature nodes weights fun _ p => g (affine translation dilation p) * basis nodes.length fourier m p) := by
  refine ⟨_, discretize_ok hg.dim_pos hg.small ht hD hr hf, ?_⟩
  rw [transform_forward_ok hz hg hd hw (IterOk.of_list hz.fits' hL) (by simp)]
  congr 1
  apply List.map_congr_left
  intro m _
  rw [quadrature, quadrature]
  refine Finset.sum_congr rfl fun i hi => ?_
  rw [Finset.mem_range] at hi
  congr 2
  simp [hi]

/-- The hypotheses hold for the identity map on a two-dimensional grid. -/
example : ([[-1, 0, 2], [0, 3]] : List (List ℝ)) ≠ [] ∧ (gridPoints [[-1, 0, 2], [0, 3]]).length < 2 ^ 32 ∧
    ([0, 0] : List ℝ).length = ([[-1, 0, 2], [0, 3]] : List (List ℝ)).length ∧
    affine [10, 0] [[1, 0], [0, 2]] [3, 4] = [13, 8] := by
  refine ⟨by simp, by simp [gridPoints, cartesian], rfl, ?_⟩
  simp [affine, List.range_succ, Finset.sum_range_succ]
  norm_num

/-- Without directions the code is undefined (the grid iterator reads the last bound). -/
theorem C45_no_direction (g : List ℝ → ℝ) : discretize (fun p => .ok (g p)) [] [] [] = .ub := by
  rw [discretize, gridLoop, forRange]
  rfl

/-- C46, partial: after any history of discretisations, the function evaluated is the one whose body was passed, if the body compiles
and no different body in the history has the same hash. Missing: colliding hashes, see `C46_collision`, and bodies that do not
compile, see `C46_compile_failure`. -/
theorem C46_function_partial (hash : String → Nat) (compile : String → Option (List ℝ → Out ℝ)) (history : List String)
    (body : String) (func : List ℝ → Out ℝ) (hc : compile body = some func)
    (hh : ∀ b ∈ history, hash b = hash body → b = body) (nodes : List (List ℝ)) (translation : List ℝ) (dilation : List (List ℝ)) :
    (discretize_from_string hash compile (filesAfter hash compile history) body nodes translation dilation).2 =
      discretize func nodes translation dilation := by
  have h1 : intern_function hash compile (filesAfter hash compile history) body (hash body) = some func := by
    have h2 : filesAfter hash compile (history ++ [body]) (hash body) = some func := by
      rw [filesAfter_eq, List.filter_append, List.findSome?_append]
      have hbody : (List.filter (fun b => hash b == hash body) [body]) = [body] := by simp
      rw [hbody]
      cases hf : (history.filter fun b => hash b == hash body).findSome? compile with
      | none => simp [hc]
      | some f =>
        obtain ⟨b, hb, hcb⟩ := List.exists_of_findSome?_eq_some hf
        rw [List.mem_filter] at hb
        have := hh b hb.1 (by simpa using hb.2)
        rw [this, hc] at hcb
        simp [hcb]
    rw [← h2]
    simp [filesAfter, List.foldl_append]
  rw [discretize_from_string]
  simp only [h1]

/-- The hypotheses hold: two bodies with different hashes. -/
example : ∃ (hash : String → Nat) (compile : String → Option (List ℝ → Out ℝ)) (func : List ℝ → Out ℝ),
    compile "v[0]" = some func ∧ ∀ b ∈ ["v[0]", "v[0]*v[0]"], hash b = hash "v[0]" → b = "v[0]" :=
  ⟨String.length, fun _ => some fun _ => .ok 0, _, rfl, by decide⟩

/-- C46 is false: hash values have 64 bits, so for any hash function and any sequence of bodies of different functions, there are two
such that the second is evaluated as the first. -/
theorem C46_collision (hash : String → Nat) (hh : ∀ b, hash b < 2 ^ 64) (compile : String → Option (List ℝ → Out ℝ))
    (body : Nat → String) (func : Nat → List ℝ → Out ℝ) (hc : ∀ n, compile (body n) = some (func n)) (hf : func.Injective) :
    ∃ m n : Nat, func m ≠ func n ∧ ∀ nodes translation dilation,
      (discretize_from_string hash compile (filesAfter hash compile [body m]) (body n) nodes translation dilation).2 =
        discretize (func m) nodes translation dilation := by
  obtain ⟨m, n, hmn, he⟩ := Finite.exists_ne_map_eq_of_infinite (fun n : Nat => (⟨hash (body n), hh _⟩ : Fin (2 ^ 64)))
  have he : hash (body m) = hash (body n) := congrArg Fin.val he
  refine ⟨m, n, fun h => hmn (hf h), fun nodes t D => ?_⟩
  have h0 : filesAfter hash compile [body m] (hash (body n)) = some (func m) := by
    rw [filesAfter_eq, List.filter_cons_of_pos (by rw [he]; exact beq_self_eq_true _), List.findSome?_cons, hc]
  have h1 : intern_function hash compile (filesAfter hash compile [body m]) (body n) (hash (body n)) = some (func m) := by
    rw [intern_function, h0]
    exact h0
  rw [discretize_from_string]
  simp only [h1]

/-- Such a sequence: the constants. -/
example : ∃ (compile : String → Option (List ℝ → Out ℝ)) (body : Nat → String) (func : Nat → List ℝ → Out ℝ),
    (∀ n, compile (body n) = some (func n)) ∧ func.Injective := by
  refine ⟨fun b => some fun _ => .ok (b.length : ℝ), fun n => String.ofList (List.replicate n '1'), fun n _ => .ok (n : ℝ), ?_, ?_⟩
  · intro n; simp
  · intro m n h
    have := congrFun h []
    simpa using this

/-- The difference is visible: at a single point the values are `m` and `n`. -/
theorem C46_collision_value (m n : Nat) (h : m ≠ n) :
    discretize (fun _ => .ok (m : ℝ)) [[0]] [0] [[1]] ≠ discretize (fun _ => .ok (n : ℝ)) [[0]] [0] [[1]] := by
  have hd : ∀ k : Nat, discretize (fun _ => .ok (k : ℝ)) [[0]] [0] [[1]] = .ok [(k : ℝ)] := by
    intro k
    rw [discretize_ok (func := fun _ => .ok (k : ℝ)) (g := fun _ => (k : ℝ)) (nodes := [[0]]) (t := [0]) (D := [[1]]) (by simp) (by simp [gridPoints, cartesian]) rfl rfl (by simp) (fun _ _ => rfl)]
    simp [gridPoints, cartesian]
  rw [hd, hd]
  simpa using h

/-- C46 is false for bodies that do not compile: the failure is not reported to the caller, the call is undefined. -/
theorem C46_compile_failure (hash : String → Nat) (compile : String → Option (List ℝ → Out ℝ)) (history : List String)
    (body : String) (hc : compile body = none) (hh : ∀ b ∈ history, hash b = hash body → b = body) (nodes : List (List ℝ))
    (translation : List ℝ) (dilation : List (List ℝ)) :
    (discretize_from_string hash compile (filesAfter hash compile history) body nodes translation dilation).2 = .ub := by
  have h0 : filesAfter hash compile history (hash body) = none := by
    rw [filesAfter_eq, List.findSome?_eq_none_iff]
    intro b hb
    rw [List.mem_filter] at hb
    rw [hh b hb.1 (by simpa using hb.2), hc]
  have h1 : intern_function hash compile (filesAfter hash compile history) body (hash body) = none := by
    rw [intern_none h0, hc]
  rw [discretize_from_string]
  simp only [h1]

end Hermipy.Props
