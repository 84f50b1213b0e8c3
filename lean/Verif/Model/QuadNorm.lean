import Verif.Model.QuadConstructors

/-! # Model of `Quad.integrate` with `flat`, and of `Quad.norm` (`hermipy/quad.py`)

Doubles are real numbers. In `norm` the integral is not tensorized (`hm.settings['tensorize']` is false). -/

namespace Hermipy
variable {F : Type} [Interp F]

/-- What can be integrated: a `Function`, a sympy expression (or number), a string, an array of values on the grid, a series. -/
inductive Integrand (F : Type) where
  | fn (f : SFn F)
  | expr (terms : Multiset (Product F))
  | text (terms : Multiset (Product F))
  | grid (values : List ℝ)
  | series (s : HSeries (SFn F))

/-- The values on the grid. quad.py:249-254, 259-263. Strings are parsed by sympy (function.py:54-55). -/
noncomputable def gridOf (slack : ℕ) (eig : Eig) (q : HQuad F) : Integrand F → Out (List ℝ)
  | .fn f => quad_discretize eig q f
  | .expr terms => factorOf (.expr terms) q.position.dirs >>= quad_discretize eig q
  | .text terms => factorOf (.expr terms) q.position.dirs >>= quad_discretize eig q
  | .grid values => .ok values
  | .series s => quad_eval slack eig q s

/-- `self.discretize(self.position.weight())`. quad.py:266. The expression is made before its values are computed; whether `weight` raises
does not depend on the point. -/
noncomputable def weightGrid (eig : Eig) (q : HQuad F) : Out (List ℝ) :=
  pos_weight q.position (fun _ => 0) >>= fun _ =>
    open scoped Classical in
    if ¬ isSorted q.position.dirs then .throws
    else discretize (fun v => pos_weight q.position fun d => v.getD (q.position.dirs.idxOf d) 0) q.nodes q.position.mean (pos_factor eig q.position)

/-- The values which are integrated. quad.py:265-271. -/
noncomputable def flatten (eig : Eig) (q : HQuad F) (flat : Bool) (values : List ℝ) : Out (List ℝ) :=
  if flat then weightGrid eig q >>= guardedDiv values else .ok values

/-- The body of `Quad.integrate`. quad.py:257-274. -/
noncomputable def quad_integrate_flat (slack : ℕ) (eig : Eig) (q : HQuad F) (flat : Bool) (f : Integrand F) : Out ℝ :=
  gridOf slack eig q f >>= fun values => flatten eig q flat values >>= fun values => integrate slack values q.nodes q.weights q.do_fourier

/-- `Quad.integrate` of a function with `tensorize=True`. quad.py:256; numbers are multiplied (core.py:208-209). -/
noncomputable def quad_integrate_flat_tensorize (order : ℕ → Finset (Finset ℕ) → List (Finset ℕ)) (k slack : ℕ) (eig : Eig) (q : HQuad F)
    (flat : Bool) (f : SFn F) : Out ℝ :=
  tensorize_at order k (fun q f => quad_integrate_flat slack eig q flat (.fn f)) (fun rs => .ok (rs.map Prod.snd).prod)
    (fun r c => .ok (r * c)) (fun r s => .ok (r + s)) q f

/-- What `norm` returns: a number, the result of `np.sqrt` for a negative number, or `None`. -/
inductive NormResult where
  | value (x : ℝ)
  | nan
  | none

/-- `np.sqrt`. -/
noncomputable def npSqrt (x : ℝ) : NormResult := open scoped Classical in if x < 0 then .nan else .value (√x)

/-- `function**2`. sympy expands it when the `Function` is made (function.py:61). Neither `Function` nor `str` has powers. quad.py:283. -/
def squareOf : Integrand F → Out (Integrand F)
  | .fn _ => .throws
  | .text _ => .throws
  | .expr terms => .ok (.expr (terms.bind fun p => terms.map fun p' => p + p'))
  | .grid values => .ok (.grid (values.map fun x => x ^ 2))
  | .series _ => .throws

/-- `abs(function)`. `absE` is sympy's absolute value. Neither `Function` nor `str` has one. quad.py:285. -/
def absOf (absE : Multiset (Product F) → Multiset (Product F)) : Integrand F → Out (Integrand F)
  | .fn _ => .throws
  | .text _ => .throws
  | .expr terms => .ok (.expr (absE terms))
  | .grid values => .ok (.grid (values.map fun x => |x|))
  | .series _ => .throws

/-- A series is replaced by its values. quad.py:279-280. -/
noncomputable def evalSeries (slack : ℕ) (eig : Eig) (q : HQuad F) : Integrand F → Out (Integrand F)
  | .series s => quad_eval slack eig q s >>= fun values => .ok (.grid values)
  | f => .ok f

/-- The cases of `n`. quad.py:282-285. -/
noncomputable def normOf (slack : ℕ) (eig : Eig) (absE : Multiset (Product F) → Multiset (Product F)) (q : HQuad F) (n : ℤ) (flat : Bool)
    (f : Integrand F) : Out NormResult :=
  if n = 2 then squareOf f >>= fun g => quad_integrate_flat slack eig q flat g >>= fun x => .ok (npSqrt x)
  else if n = 1 then absOf absE f >>= fun g => quad_integrate_flat slack eig q flat g >>= fun x => .ok (.value x)
  else .ok .none

/-- `Quad.norm`. quad.py:277-285. -/
noncomputable def quad_norm (slack : ℕ) (eig : Eig) (absE : Multiset (Product F) → Multiset (Product F)) (q : HQuad F) (f : Integrand F) (n : ℤ)
    (flat : Bool) : Out NormResult :=
  evalSeries slack eig q f >>= normOf slack eig absE q n flat

end Hermipy
