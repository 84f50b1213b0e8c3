import Verif.Model.Equality
import Verif.Model.VarfObject

/-! # Model of `hermipy/compquad.py`: weighted sums of quadratures

The methods of the quadratures are parameters. -/

namespace Hermipy
variable {F : Type}

/-- The attributes of a `CompQuad`. compquad.py:36-38. -/
structure HComp (F : Type) where
  quads : List (HQuad F)
  qweights : List ℝ
  position : Position

open scoped Classical in
/-- `CompQuad(quads, qweights)`. compquad.py:24-38. -/
noncomputable def comp_init (quads : List (HQuad F)) (qweights : List ℝ) : Out (HComp F) :=
  match quads with
  | [] => .throws
  | q0 :: qs =>
    if ¬ (q0 :: qs).length = qweights.length then .throws
    else if ∃ q ∈ q0 :: qs, ¬ pos_eq q.position q0.position then .throws
    else .ok ⟨q0 :: qs, qweights, q0.position⟩

/-- The loop over `enumerate(self.quads)`, with `result = 0` first. compquad.py:58-61, 64-68, 71-75. -/
def compSum {α β : Type} (value : HQuad F → Out α) (times : α → ℝ → Out α) (plus : β → α → Out β) (c : HComp F) (zero : β) : Out β :=
  c.quads.zipIdx.foldlM (fun result q => do
    let v ← value q.1
    let w ← pyget c.qweights q.2
    let t ← times v w
    plus result t) zero

/-- `CompQuad.integrate`. compquad.py:57-61. -/
def comp_integrate (integrate : HQuad F → Out ℝ) (c : HComp F) : Out ℝ :=
  compSum integrate (fun v w => .ok (v * w)) (fun r v => .ok (r + v)) c 0

/-- The variable `result` of a loop: a number at first, then an object. -/
inductive Accu (α : Type) where
  | number (x : ℝ)
  | object (a : α)

/-- `result + series`. `Series` has no method `__radd__` (series.py:115-163), so that a number on the left raises `TypeError`. -/
noncomputable def accuSeries [DecidableEq F] : Accu (HSeries (SFn F)) → HSeries (SFn F) → Out (Accu (HSeries (SFn F)))
  | .number _, _ => .throws
  | .object r, s => series_add r s >>= fun t => .ok (.object t)

/-- `CompQuad.transform`. compquad.py:63-68. -/
noncomputable def comp_transform [DecidableEq F] (transform : HQuad F → Out (HSeries (SFn F))) (c : HComp F) : Out (Accu (HSeries (SFn F))) :=
  compSum transform series_mul_scalar accuSeries c (.number 0)

/-- `result + varf`. `Varf.__radd__` is `Varf.__add__`. varf.py:85-101, 119. -/
noncomputable def accuVarf [DecidableEq F] : Accu (HVarf (SFn F)) → HVarf (SFn F) → Out (Accu (HVarf (SFn F)))
  | .number x, A => varf_add_scalar A x >>= fun B => .ok (.object B)
  | .object R, A => varf_add R A >>= fun B => .ok (.object B)

/-- `CompQuad.varf`. compquad.py:70-75. -/
noncomputable def comp_varf [DecidableEq F] (varf : HQuad F → Out (HVarf (SFn F))) (c : HComp F) : Out (Accu (HVarf (SFn F))) :=
  compSum varf varf_mul_scalar accuVarf c (.number 0)

/-- `CompQuad.project`. compquad.py:87-89. The name `directions` is not defined there. -/
noncomputable def comp_project (c : HComp F) : Out (HComp F) :=
  (c.quads.mapM fun _ => (.throws : Out (HQuad F))) >>= fun new_quads => comp_init new_quads c.qweights

/-- `all(q1 == q2 for q1, q2 in zip(...))` stops at the first difference. compquad.py:54. -/
noncomputable def allEq [DecidableEq F] : List (HQuad F × HQuad F) → Out Bool
  | [] => .ok true
  | (q, r) :: l => quad_eq q r >>= fun b => if b then allEq l else .ok false

/-- `CompQuad.__eq__` with another `CompQuad`. compquad.py:43-54. -/
noncomputable def comp_eq [DecidableEq F] (c d : HComp F) : Out Bool :=
  if ¬ c.quads.length = d.quads.length then .ok false else allEq (c.quads.zip d.quads)

/-- `CompQuad.__eq__` with a `Quad`. compquad.py:43-54. -/
noncomputable def comp_eq_quad [DecidableEq F] (c : HComp F) (q : HQuad F) : Out Bool :=
  comp_init [q] [1] >>= comp_eq c

/-! ## Arguments of Python functions -/

/-- A Python function: the names of its parameters, which may be given by position or by name, and the number of those without default. -/
structure Signature where
  params : List String
  required : ℕ

/-- A call with `positional` arguments by position and the given names: `TypeError` for too many arguments, for an unknown name, for a
parameter given twice and for a missing one. -/
def Signature.call {α : Type} (f : Signature) (positional : ℕ) (names : List String) (body : Out α) : Out α :=
  if positional > f.params.length then .throws
  else if ∃ n ∈ names, n ∉ f.params.drop positional then .throws
  else if ∃ n ∈ (f.params.take f.required).drop positional, n ∉ names then .throws
  else body

/-- `CompQuad.varf(self, f_grid, degree, sparse=None, index_set="triangle")`. compquad.py:69. -/
def compVarfSig : Signature := ⟨["self", "f_grid", "degree", "sparse", "index_set"], 3⟩

/-- `Quad.varfd(self, function, degree, directions, sparse=None, index_set="triangle", tensorize=None)`. quad.py:347-348. -/
def quadVarfdSig : Signature := ⟨["self", "function", "degree", "directions", "sparse", "index_set", "tensorize"], 4⟩

/-- `Quad.discretize_op(self, op, degree, sparse=None, index_set="triangle")`. quad.py:366-367. -/
def quadOpSig : Signature := ⟨["self", "op", "degree", "sparse", "index_set"], 3⟩

/-- `CompQuad.varfd`. compquad.py:76-79, quad.py:347-353. If the decorator tensorizes (quad.py:186-239), it looks for the attribute `factor` of
`self`, which a `CompQuad` does not have, or, if the function has no terms, for the first of no results: both raise. Otherwise the first call in
`Quad.varfd` is `self.varf(function, degree, sparse=.., index_set=.., tensorize=False)`; `rest` stands for what comes after it. -/
def comp_varfd {α : Type} (tensorizing : Bool) (varf : Out (Accu (HVarf (SFn F)))) (rest : Accu (HVarf (SFn F)) → Out α) : Out α :=
  if tensorizing then .throws
  else quadVarfdSig.call 4 ["sparse", "index_set"] (do
    let var ← compVarfSig.call 3 ["sparse", "index_set", "tensorize"] varf
    rest var)

/-- `CompQuad.discretize_op`. compquad.py:81-84; `body` stands for `Quad.discretize_op`. -/
def comp_discretize_op {α : Type} (body : Out α) : Out α := quadOpSig.call 5 ["sparse", "index_set"] body

end Hermipy
