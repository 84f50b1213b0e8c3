import Verif.Model.Equations
import Verif.Lemmas.OperatorAlgebra
import Mathlib.Tactic.LinearCombination

/-! # The equations, applied to a function -/

namespace Hermipy
open Hermipy.Spec

variable {K : Type} [CommRing K] {D : ℕ → K → K} {X : ℕ → K} {inv : K → K}

theorem wide_unknown (dirs : List ℕ) : Wide dirs.length (unknown dirs : List (OpTerm K)) := by
  intro t ht
  rw [unknown, List.mem_singleton] at ht
  rw [ht]
  simp

theorem acts_unknown (dirs : List ℕ) (u : K) : acts D dirs (unknown dirs) u = u := by
  rw [unknown, acts_cons, acts_nil, partials_none]
  ring

theorem Spec.Partials.one (h : Partials D) (d : ℕ) : D d (1 : K) = 0 := by
  have := h.mul d 1 1
  simpa using this

theorem Spec.Partials.neg (h : Partials D) (d : ℕ) (u : K) : D d (-u) = - D d u := by
  have := h.add d u (-u)
  rw [add_neg_cancel, h.zero] at this
  exact (neg_eq_of_add_eq_zero_right this.symm).symm

theorem Spec.Partials.sub (h : Partials D) (d : ℕ) (u v : K) : D d (u - v) = D d u - D d v := by
  rw [sub_eq_add_neg, h.add, h.neg, sub_eq_add_neg]

macro "wide" : tactic =>
  `(tactic| repeat first | exact wide_unknown _ | apply wide_append | apply wide_scale | apply wide_diff)

theorem fokker_planck_acts (h : Partials D) {u : K} (hu : DependsOn D [0] u) (β V : K) :
    acts D [0] (fokker_planck_1d D inv β V) u = D 0 (D 0 V * u + inv β * D 0 u) := by
  have hd := fun (d : ℕ) T (hl : Wide [0].length T) => acts_diff (d := d) h hl hu
  simp (disch := wide) only [fokker_planck_1d, acts_append, acts_scale, acts_unknown, hd]

theorem mv_white_acts (h : Partials D) {u : K} (hu : DependsOn D [0] u) (β θ m V : K) :
    acts D [0] (mv_white D X inv β θ m V) u = D 0 (D 0 V * u + θ * (X 0 - m) * u + inv β * D 0 u) := by
  have hd := fun (d : ℕ) T (hl : Wide [0].length T) => acts_diff (d := d) h hl hu
  simp (disch := wide) only [mv_white, mv_white_flux, acts_append, acts_scale, acts_unknown, hd, neg_mul, one_mul, h.neg, neg_neg]

theorem mv_acts (h : Partials D) {u : K} (hu : DependsOn D [0, 1] u) (β γ ε θ m V Vy noise : K) :
    acts D [0, 1] (mv D X inv β γ ε θ m V Vy noise) u =
      D 0 (D 0 V * u + θ * (X 0 - m) * u - (1 - γ) * noise * X 1 * inv ε * u + γ ^ 2 * inv β * D 0 u) +
      D 1 (inv ε ^ 2 * (D 1 Vy * u + D 1 u)) := by
  have hd := fun (d : ℕ) T (hl : Wide [0, 1].length T) => acts_diff (d := d) h hl hu
  simp (disch := wide) only [mv, mv_flux_x, mv_flux_y, acts_append, acts_scale, acts_unknown, hd, neg_mul, one_mul, h.neg, neg_neg,
    ← sub_eq_add_neg]

theorem harmonic_acts (h : Partials D) {u : K} (hu : DependsOn D [0, 1, 2] u) (β γ ε θ m V root : K) :
    acts D [0, 1, 2] (harmonic D X inv β γ ε θ m V root) u =
      D 0 (D 0 V * u + θ * (X 0 - m) * u - (1 - γ) * root * X 2 * inv ε * u + γ ^ 2 * inv β * D 0 u) +
      D 1 (inv ε ^ 2 * (X 2 * u + (X 1 * u + D 1 u))) - D 2 (inv ε ^ 2 * (X 1 * u)) := by
  have hd := fun (d : ℕ) T (hl : Wide [0, 1, 2].length T) => acts_diff (d := d) h hl hu
  simp (disch := wide) only [harmonic, harmonic_flux_x, harmonic_flux_y, harmonic_flux_z, acts_append, acts_scale, acts_unknown, hd, neg_mul,
    mul_neg, one_mul, h.neg, neg_neg, ← sub_eq_add_neg]

theorem overdamped_acts (h : Partials D) {u : K} (hu : DependsOn D [0] u) (β V : K) :
    acts D [0] (overdamped_backward D inv β V) u = - (D 0 V * D 0 u) + inv β * D 0 (D 0 u) := by
  have hd := fun (d : ℕ) T (hl : Wide [0].length T) => acts_diff (d := d) h hl hu
  simp (disch := wide) only [overdamped_backward, acts_append, acts_scale, acts_unknown, hd, neg_mul]

theorem langevin_forward_acts (h : Partials D) {u : K} (hu : DependsOn D [0, 1] u) (lam : K) :
    acts D [0, 1] (langevin_forward D X lam) u = - (X 0 * D 1 u) + X 1 * D 0 u + lam * D 0 (X 0 * u + D 0 u) := by
  have hd := fun (d : ℕ) T (hl : Wide [0, 1].length T) => acts_diff (d := d) h hl hu
  simp (disch := wide) only [langevin_forward, acts_append, acts_scale, acts_unknown, hd, neg_mul]

theorem langevin_backward_acts (h : Partials D) {u : K} (hu : DependsOn D [0, 1] u) (γ β Vy : K) :
    acts D [0, 1] (langevin_backward D X inv γ β Vy) u =
      X 0 * D 1 u - D 1 Vy * D 0 u + γ * (- (X 0 * D 0 u) + inv β * D 0 (D 0 u)) := by
  have hd := fun (d : ℕ) T (hl : Wide [0, 1].length T) => acts_diff (d := d) h hl hu
  simp (disch := wide) only [langevin_backward, acts_append, acts_scale, acts_unknown, hd, neg_mul, ← sub_eq_add_neg]

theorem gle_one_acts (h : Partials D) {u : K} (hu : DependsOn D [0, 1, 2] u) (β V lam α : K) :
    acts D [0, 1, 2] (gle_aux D X inv β V [0, 1, 2] [2] [lam] [[α]]) u =
      X 1 * D 0 u - D 0 V * D 1 u + lam * X 2 * D 1 u - X 1 * (lam * D 2 u) - α * X 2 * D 2 u + inv β * (α * D 2 (D 2 u)) := by
  have hd := fun (d : ℕ) T (hl : Wide [0, 1, 2].length T) => acts_diff (d := d) h hl hu
  simp (disch := wide) only [gle_aux, dotTerms, List.map_cons, List.map_nil, List.zipWith_cons_cons, List.zipWith_nil_left, List.flatten_cons,
    List.flatten_nil, List.append_nil, List.sum_cons, List.sum_nil, add_zero, acts_append, acts_scale, acts_unknown, hd, neg_mul, one_mul,
    ← sub_eq_add_neg]

theorem gle_two_acts (h : Partials D) {u : K} (hu : DependsOn D [0, 1, 2, 3] u) (β V l1 l2 a b c d : K) :
    acts D [0, 1, 2, 3] (gle_aux D X inv β V [0, 1, 2, 3] [2, 3] [l1, l2] [[a, b], [c, d]]) u =
      X 1 * D 0 u - D 0 V * D 1 u + (l1 * X 2 + l2 * X 3) * D 1 u - X 1 * (l1 * D 2 u + l2 * D 3 u) -
      ((a * X 2 + b * X 3) * D 2 u + (c * X 2 + d * X 3) * D 3 u) +
      inv β * (a * D 2 (D 2 u) + b * D 3 (D 2 u) + (c * D 2 (D 3 u) + d * D 3 (D 3 u))) := by
  have hd := fun (d : ℕ) T (hl : Wide [0, 1, 2, 3].length T) => acts_diff (d := d) h hl hu
  simp (disch := wide) only [gle_aux, dotTerms, List.map_cons, List.map_nil, List.zipWith_cons_cons, List.zipWith_nil_left, List.flatten_cons,
    List.flatten_nil, List.append_nil, List.sum_cons, List.sum_nil, add_zero, acts_append, acts_scale, acts_unknown, hd, neg_mul, one_mul,
    ← sub_eq_add_neg]

theorem gle_none_acts (h : Partials D) {u : K} (hu : DependsOn D [0, 1] u) (β V γ : K) :
    acts D [0, 1] (scaleTerms (X 1) (diffTerms D [0, 1] 0 (unknown [0, 1])) ++ scaleTerms (-D 0 V) (diffTerms D [0, 1] 1 (unknown [0, 1])) ++
      scaleTerms γ (scaleTerms (-X 1) (diffTerms D [0, 1] 1 (unknown [0, 1])) ++
        scaleTerms (inv β) (diffTerms D [0, 1] 1 (diffTerms D [0, 1] 1 (unknown [0, 1]))))) u =
      X 1 * D 0 u - D 0 V * D 1 u + γ * (- (X 1 * D 1 u) + inv β * D 1 (D 1 u)) := by
  have hd := fun (d : ℕ) T (hl : Wide [0, 1].length T) => acts_diff (d := d) h hl hu
  simp (disch := wide) only [acts_append, acts_scale, acts_unknown, hd, neg_mul, ← sub_eq_add_neg]

end Hermipy
