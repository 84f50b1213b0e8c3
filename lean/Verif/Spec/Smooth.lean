import Verif.Spec.OperatorAlgebra
import Verif.Spec.Form
import Mathlib.Analysis.Calculus.ContDiff.Operations
import Mathlib.Analysis.Calculus.FDeriv.Symmetric
import Mathlib.Analysis.Calculus.Deriv.Pi
import Mathlib.Analysis.Calculus.Deriv.Comp
import Mathlib.Algebra.Algebra.Subalgebra.Basic
import Mathlib.Algebra.Algebra.Rat
import Mathlib.Analysis.SpecialFunctions.Trigonometric.Deriv
import Mathlib.Analysis.SpecialFunctions.ExpDeriv

/-! # The ring of the smooth functions of given coordinates -/

namespace Hermipy
open Hermipy.Spec
open scoped ContDiff

/-- The smooth functions of `n` variables. -/
def Smooth (n : ℕ) : Subalgebra ℚ ((Fin n → ℝ) → ℝ) where
  carrier := {f | ContDiff ℝ ∞ f}
  mul_mem' {_ _} hf hg := by
    rw [Set.mem_ofPred_eq] at *
    exact hf.mul hg
  one_mem' := by
    rw [Set.mem_ofPred_eq]
    exact contDiff_const (c := (1 : ℝ))
  add_mem' {_ _} hf hg := by
    rw [Set.mem_ofPred_eq] at *
    exact hf.add hg
  zero_mem' := by
    rw [Set.mem_ofPred_eq]
    exact contDiff_const (c := (0 : ℝ))
  algebraMap_mem' r := by
    rw [Set.mem_ofPred_eq]
    exact contDiff_const (c := (algebraMap ℚ ℝ r))

noncomputable instance (n : ℕ) : DecidableEq (Smooth n) := Classical.decEq _

namespace Smooth
variable {n : ℕ}

theorem mem_iff {f : (Fin n → ℝ) → ℝ} : f ∈ Smooth n ↔ ContDiff ℝ ∞ f := Iff.rfl

theorem smooth (f : Smooth n) : ContDiff ℝ ∞ (f : (Fin n → ℝ) → ℝ) := f.2

/-- The derivative with respect to the variable `i`. -/
noncomputable def diff (i : Fin n) (f : Smooth n) : Smooth n :=
  ⟨fun x => fderiv ℝ (f : (Fin n → ℝ) → ℝ) x (Pi.single i 1), by
    have h : ContDiff ℝ ∞ (fderiv ℝ (f : (Fin n → ℝ) → ℝ)) := (smooth f).fderiv_right (m := ∞) (by simp)
    exact h.clm_apply contDiff_const⟩

theorem diff_add (i : Fin n) (f g : Smooth n) : diff i (f + g) = diff i f + diff i g := by
  ext x
  change fderiv ℝ ((f : (Fin n → ℝ) → ℝ) + (g : (Fin n → ℝ) → ℝ)) x _ = _
  rw [fderiv_add ((smooth f).differentiable (by simp) x) ((smooth g).differentiable (by simp) x)]
  rfl

theorem diff_mul (i : Fin n) (f g : Smooth n) : diff i (f * g) = diff i f * g + f * diff i g := by
  ext x
  change fderiv ℝ ((f : (Fin n → ℝ) → ℝ) * (g : (Fin n → ℝ) → ℝ)) x _ = _
  rw [fderiv_mul ((smooth f).differentiable (by simp) x) ((smooth g).differentiable (by simp) x)]
  simp only [add_apply, smul_apply, smul_eq_mul]
  change _ = (diff i f : (Fin n → ℝ) → ℝ) x * (g : (Fin n → ℝ) → ℝ) x + (f : (Fin n → ℝ) → ℝ) x * (diff i g : (Fin n → ℝ) → ℝ) x
  simp only [diff]
  ring

theorem diff_diff (i j : Fin n) (f : Smooth n) (x : Fin n → ℝ) :
    (diff i (diff j f) : (Fin n → ℝ) → ℝ) x = fderiv ℝ (fderiv ℝ (f : (Fin n → ℝ) → ℝ)) x (Pi.single i 1) (Pi.single j 1) := by
  have h : ContDiff ℝ ∞ (fderiv ℝ (f : (Fin n → ℝ) → ℝ)) := (smooth f).fderiv_right (m := ∞) (by simp)
  change fderiv ℝ (fun x => fderiv ℝ (f : (Fin n → ℝ) → ℝ) x (Pi.single j 1)) x (Pi.single i 1) = _
  rw [fderiv_clm_apply (h.differentiable (by simp) x) (differentiableAt_const _)]
  simp

theorem diff_comm (i j : Fin n) (f : Smooth n) : diff i (diff j f) = diff j (diff i f) := by
  ext x
  rw [diff_diff, diff_diff]
  exact ((smooth f).contDiffAt.isSymmSndFDerivAt (by
    rw [minSmoothness_of_isRCLikeNormedField]
    exact WithTop.coe_le_coe.2 (le_top : (2 : ℕ∞) ≤ ⊤))) _ _

/-- The value at the coordinates `x`, where the variables are the coordinates in `dirs`. -/
noncomputable def ev (dirs : List ℕ) : Smooth dirs.length →+* ((ℕ → ℝ) → ℝ) where
  toFun f x := (f : (Fin dirs.length → ℝ) → ℝ) fun i => x dirs[i]
  map_zero' := rfl
  map_one' := rfl
  map_add' _ _ := rfl
  map_mul' _ _ := rfl

/-- The partial derivative in the direction `d`. -/
noncomputable def D (dirs : List ℕ) (d : ℕ) (f : Smooth dirs.length) : Smooth dirs.length :=
  if h : dirs.idxOf d < dirs.length then diff ⟨dirs.idxOf d, h⟩ f else 0

theorem partials_ok (dirs : List ℕ) : Partials (D dirs) where
  add d u v := by unfold D; split <;> simp [diff_add]
  mul d u v := by unfold D; split <;> simp [diff_mul]
  comm d e u := by
    unfold D
    split <;> split
    · exact diff_comm _ _ _
    · ext x
      change fderiv ℝ (fun _ => (0 : ℝ)) x _ = 0
      simp
    · ext x
      change _ = fderiv ℝ (fun _ => (0 : ℝ)) x _
      simp
    · rfl

theorem depends (dirs : List ℕ) (f : Smooth dirs.length) : DependsOn (D dirs) dirs f := by
  intro d hd
  rw [D, dif_neg]
  simpa [List.idxOf_lt_length_iff] using hd

theorem ev_D {dirs : List ℕ} (hn : dirs.Nodup) (d : ℕ) (f : Smooth dirs.length) : ev dirs (D dirs d f) = pd d (ev dirs f) := by
  funext x
  rw [pd, D]
  split
  · rename_i h
    have he : dirs[dirs.idxOf d] = d := List.getElem_idxOf h
    have hu : ∀ t, (fun i : Fin dirs.length => Function.update x d t dirs[i]) =
        Function.update (fun i : Fin dirs.length => x dirs[i]) ⟨dirs.idxOf d, h⟩ t := by
      intro t
      funext i
      by_cases hi : i = ⟨dirs.idxOf d, h⟩
      · subst hi
        simp [he]
      · have : dirs[i] ≠ d := by
          intro e
          apply hi
          apply Fin.ext
          have := hn.idxOf_getElem (i : ℕ) i.2
          rw [show dirs[(i : ℕ)] = d from e] at this
          exact this.symm
        rw [Function.update_of_ne this, Function.update_of_ne hi]
    change _ = deriv (fun t => (f : (Fin dirs.length → ℝ) → ℝ) fun i => Function.update x d t dirs[i]) (x d)
    simp only [hu]
    have h1 : HasDerivAt (Function.update (fun i : Fin dirs.length => x dirs[i]) ⟨dirs.idxOf d, h⟩) (Pi.single ⟨dirs.idxOf d, h⟩ (1 : ℝ)) (x d) :=
      hasDerivAt_update _ _ _
    have h2 : DifferentiableAt ℝ (f : (Fin dirs.length → ℝ) → ℝ) (Function.update (fun i : Fin dirs.length => x dirs[i]) ⟨dirs.idxOf d, h⟩ (x d)) :=
      (smooth f).differentiable (by simp) _
    have h3 := h2.hasFDerivAt.comp_hasDerivAt (x d) h1
    rw [show (fun t => (f : (Fin dirs.length → ℝ) → ℝ) (Function.update (fun i : Fin dirs.length => x dirs[i]) ⟨dirs.idxOf d, h⟩ t)) =
      (f : (Fin dirs.length → ℝ) → ℝ) ∘ Function.update (fun i : Fin dirs.length => x dirs[i]) ⟨dirs.idxOf d, h⟩ from rfl, h3.deriv]
    have h4 : Function.update (fun i : Fin dirs.length => x dirs[i]) ⟨dirs.idxOf d, h⟩ (x d) = fun i : Fin dirs.length => x dirs[i] := by
      rw [← hu]
      funext i
      simp
    rw [h4]
    rfl
  · rename_i h
    have hd : d ∉ dirs := by simpa [List.idxOf_lt_length_iff] using h
    change (0 : ℝ) = deriv (fun t => (f : (Fin dirs.length → ℝ) → ℝ) fun i => Function.update x d t dirs[i]) (x d)
    have : ∀ t, (fun i : Fin dirs.length => Function.update x d t dirs[i]) = fun i : Fin dirs.length => x dirs[i] := by
      intro t
      funext i
      rw [Function.update_of_ne]
      exact fun e => hd (e ▸ List.getElem_mem i.2)
    simp only [this, deriv_const]

/-- The constant functions. -/
noncomputable def const (c : ℝ) : Smooth n := ⟨fun _ => c, mem_iff.2 contDiff_const⟩

/-- The coordinate `d`. -/
noncomputable def X (dirs : List ℕ) (d : ℕ) : Smooth dirs.length :=
  if h : dirs.idxOf d < dirs.length then ⟨fun x => x ⟨dirs.idxOf d, h⟩, mem_iff.2 (contDiff_apply ℝ ℝ _)⟩ else 0

theorem ev_X {dirs : List ℕ} {d : ℕ} (h : d ∈ dirs) (x : ℕ → ℝ) : ev dirs (X dirs d) x = x d := by
  have hi : dirs.idxOf d < dirs.length := List.idxOf_lt_length_iff.2 h
  rw [X, dif_pos hi]
  change x dirs[dirs.idxOf d] = x d
  rw [List.getElem_idxOf hi]

/-- The exponential of a function. -/
noncomputable def exp (f : Smooth n) : Smooth n := ⟨fun x => Real.exp ((f : (Fin n → ℝ) → ℝ) x), Real.contDiff_exp.comp (smooth f)⟩

/-- The reciprocal of a function without zeros. -/
noncomputable def inv (f : Smooth n) : Smooth n :=
  open Classical in if h : ∀ x, (f : (Fin n → ℝ) → ℝ) x ≠ 0 then ⟨fun x => ((f : (Fin n → ℝ) → ℝ) x)⁻¹, mem_iff.2 ((smooth f).inv h)⟩ else 0

theorem mul_inv {f : Smooth n} (h : ∀ x, (f : (Fin n → ℝ) → ℝ) x ≠ 0) : f * inv f = 1 := by
  rw [inv, dif_pos h]
  ext x
  exact mul_inv_cancel₀ (h x)

theorem inv_const {c : ℝ} (h : c ≠ 0) : inv (const c : Smooth n) = const c⁻¹ := by
  have h' : ∀ x, ((const c : Smooth n) : (Fin n → ℝ) → ℝ) x ≠ 0 := fun _ => h
  rw [inv, dif_pos h']
  rfl

theorem const_mul_inv {c : ℝ} (h : c ≠ 0) : (const c : Smooth n) * inv (const c) = 1 := mul_inv fun _ => h

theorem D_const (dirs : List ℕ) (d : ℕ) (c : ℝ) : D dirs d (const c) = 0 := by
  rw [D]
  split
  · ext x
    change fderiv ℝ (fun _ => c) x _ = 0
    simp
  · rfl

theorem D_X {dirs : List ℕ} {d e : ℕ} (he : e ∈ dirs) : D dirs d (X dirs e) = if d = e then 1 else 0 := by
  have hie : dirs.idxOf e < dirs.length := List.idxOf_lt_length_iff.2 he
  rw [X, dif_pos hie, D]
  split
  · rename_i hd
    ext x
    change fderiv ℝ (fun x : Fin dirs.length → ℝ => x ⟨dirs.idxOf e, hie⟩) x (Pi.single ⟨dirs.idxOf d, hd⟩ 1) = _
    rw [show fderiv ℝ (fun x : Fin dirs.length → ℝ => x ⟨dirs.idxOf e, hie⟩) x = ContinuousLinearMap.proj ⟨dirs.idxOf e, hie⟩ from
      (ContinuousLinearMap.proj (R := ℝ) (φ := fun _ : Fin dirs.length => ℝ) ⟨dirs.idxOf e, hie⟩).fderiv]
    by_cases hde : d = e
    · subst hde
      simp
    · have : dirs.idxOf e ≠ dirs.idxOf d := fun h => hde ((List.idxOf_inj he).1 h).symm
      simp [hde, Fin.ext_iff, this]
  · rename_i hd
    have hd' : d ∉ dirs := by simpa [List.idxOf_lt_length_iff] using hd
    rw [if_neg]
    rintro rfl
    exact hd' he

theorem D_exp (dirs : List ℕ) (d : ℕ) (f : Smooth dirs.length) : D dirs d (exp f) = D dirs d f * exp f := by
  rw [D, D]
  split
  · ext x
    change fderiv ℝ (fun x => Real.exp ((f : (Fin dirs.length → ℝ) → ℝ) x)) x _ = fderiv ℝ (f : (Fin dirs.length → ℝ) → ℝ) x _ *
      Real.exp ((f : (Fin dirs.length → ℝ) → ℝ) x)
    rw [fderiv_exp ((smooth f).differentiable (by simp) x), smul_apply, smul_eq_mul, mul_comm]
  · rw [zero_mul]

end Smooth
end Hermipy
