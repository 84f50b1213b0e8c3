import Verif.Lemmas.Equations
import Verif.Lemmas.Integral
import Mathlib.Analysis.Calculus.BumpFunction.FiniteDimension

/-! # C77: the equations -/

namespace Hermipy.Props
open Hermipy Hermipy.Spec Hermipy.Smooth

variable {dirs : List ℕ}

theorem D_kinetic {d e : ℕ} (he : e ∈ dirs) : D dirs d (kinetic dirs e) = if d = e then X dirs e else 0 := by
  have h := partials_ok dirs
  rw [kinetic, h.mul, h.mul, D_const, D_X he]
  split
  · have : (const (1 / 2) : Smooth dirs.length) + const (1 / 2) = 1 := by
      ext x
      exact add_halves 1
    linear_combination X dirs e * this
  · ring

theorem D_gibbs (β : ℝ) (H : Smooth dirs.length) (d : ℕ) : D dirs d (gibbs β H) = -(const β * D dirs d H * gibbs β H) := by
  have h := partials_ok dirs
  rw [gibbs, D_exp, h.neg, h.mul, D_const]
  ring

theorem gibbs_pos (β : ℝ) (H : Smooth dirs.length) (x : Fin dirs.length → ℝ) : 0 < (gibbs β H : (Fin dirs.length → ℝ) → ℝ) x := Real.exp_pos _

theorem D_inv_const {c : ℝ} (h : c ≠ 0) (d : ℕ) : D dirs d (Smooth.inv (const c)) = 0 := by rw [inv_const h, D_const]

/-- The derivative of `V + θ (x - m)²/2`. -/
theorem D_confine (V : Smooth dirs.length) (θ m : ℝ) {d e : ℕ} (he : e ∈ dirs) :
    D dirs d (V + const (θ / 2) * ((X dirs e - const m) * (X dirs e - const m))) =
      D dirs d V + if d = e then const θ * (X dirs e - const m) else 0 := by
  have h := partials_ok dirs
  have : (const (θ / 2) : Smooth dirs.length) + const (θ / 2) = const θ := by
    ext x
    exact add_halves θ
  simp only [h.add, h.mul, h.sub, D_const, D_X he]
  split
  · linear_combination (X dirs e - const m) * this
  · ring

/-- Compact supports: products with one factor of compact support, derivatives, sums. -/
syntax "cs" : tactic
macro_rules
  | `(tactic| cs) => `(tactic| first
      | assumption
      | exact Compact.zero
      | (apply Compact.add <;> cs)
      | (apply Compact.sub <;> cs)
      | (apply Compact.neg; cs)
      | (apply Compact.D; cs)
      | (apply Compact.mul_left; cs)
      | (apply Compact.mul_right; cs))

/-- **C77.** `map_operator` with the factor `g` acts as `u ↦ L (g u) / g`. -/
theorem C77_map_operator {K : Type} [CommRing K] [DecidableEq K] {D : ℕ → K → K} (h : Partials D) (inv : K → K) {dirs : List ℕ} (T : List (OpTerm K))
    (g : K) {u : K} (hu : DependsOn D dirs u) : acts D dirs (map_operator D inv dirs T g) u = inv g * acts D dirs T (g * u) := by
  rw [map_operator, acts_collect, acts_scale, acts_subst h (wide_scale (wide_unknown _)) hu, acts_scale, acts_unknown]

/-! ## Diffusion processes -/

theorem compact_sum {n : ℕ} {α : Type} (l : List α) {f : α → Smooth n} (h : ∀ a ∈ l, Compact (f a)) : Compact (l.map f).sum := by
  induction l with
  | nil => exact Compact.zero
  | cons a l ih =>
    rw [List.map_cons, List.sum_cons]
    exact (h a (by simp)).add (ih fun b hb => h b (by simp [hb]))

theorem integral_sum {n : ℕ} {α : Type} (l : List α) {f : α → Smooth n} (h : ∀ a ∈ l, Compact (f a)) :
    integral (l.map f).sum = (l.map fun a => integral (f a)).sum := by
  induction l with
  | nil => exact MeasureTheory.integral_zero _ _
  | cons a l ih =>
    rw [List.map_cons, List.sum_cons, List.map_cons, List.sum_cons, integral_add (h a (by simp)) (compact_sum _ fun b hb => h b (by simp [hb])),
      ih fun b hb => h b (by simp [hb])]

theorem integral_parts {d : ℕ} {u v : Smooth dirs.length} (h : Compact u ∨ Compact v) : integral (v * D dirs d u) = -integral (u * D dirs d v) := by
  have e : v * D dirs d u + u * D dirs d v = D dirs d (v * u) := by
    rw [(partials_ok dirs).mul]
    ring
  rw [eq_neg_iff_add_eq_zero]
  rcases h with hc | hc <;> rw [← integral_add (by cs) (by cs), e] <;> exact integral_D (by cs)

/-- **C77.** Forward and backward operators of a diffusion process are adjoint. -/
theorem C77_forward_backward (b : ℕ → Smooth dirs.length) (a : ℕ → ℕ → Smooth dirs.length) {u v : Smooth dirs.length} (h : Compact u ∨ Compact v) :
    integral (v * forward (D dirs) dirs b a u) = integral (u * backward (D dirs) dirs b a v) := by
  have hw : ∀ (l : List ℕ) (w : Smooth dirs.length) (f : ℕ → Smooth dirs.length), w * (l.map f).sum = (l.map fun i => w * f i).sum := by
    intro l w f
    rw [List.sum_map_mul_left]
  have hn : ∀ (l : List ℕ) (f : ℕ → ℝ), (l.map fun i => -f i).sum = -(l.map f).sum := by
    intro l f
    induction l with
    | nil => simp
    | cons i l ih =>
      simp only [List.map_cons, List.sum_cons, ih]
      ring
  have c1 : ∀ i, Compact (v * D dirs i (b i * u)) := fun i => by rcases h with h | h <;> cs
  have c2 : ∀ i j, Compact (v * D dirs i (D dirs j (a i j * u))) := fun i j => by rcases h with h | h <;> cs
  have c3 : ∀ i, Compact (u * (b i * D dirs i v)) := fun i => by rcases h with h | h <;> cs
  have c4 : ∀ i j, Compact (u * (a i j * D dirs i (D dirs j v))) := fun i j => by rcases h with h | h <;> cs
  have e1 : integral (v * (dirs.map fun i => D dirs i (b i * u)).sum) = -integral (u * (dirs.map fun i => b i * D dirs i v).sum) := by
    rw [hw, hw, integral_sum _ fun i _ => c1 i, integral_sum _ fun i _ => c3 i, ← hn]
    congr 1
    apply List.map_congr_left
    intro i _
    rw [integral_parts (h.imp (fun hc => by cs) id), show b i * u * D dirs i v = u * (b i * D dirs i v) by ring]
  have e2 : integral (v * (dirs.map fun i => (dirs.map fun j => D dirs i (D dirs j (a i j * u))).sum).sum) =
      integral (u * (dirs.map fun i => (dirs.map fun j => a i j * D dirs i (D dirs j v)).sum).sum) := by
    simp only [hw]
    rw [integral_sum _ fun i _ => compact_sum _ fun j _ => c2 i j, integral_sum _ fun i _ => compact_sum _ fun j _ => c4 i j]
    congr 1
    apply List.map_congr_left
    intro i _
    rw [integral_sum _ fun j _ => c2 i j, integral_sum _ fun j _ => c4 i j]
    congr 1
    apply List.map_congr_left
    intro j _
    rw [integral_parts (h.imp (fun hc => by cs) id), mul_comm (D dirs j _), integral_parts (h.imp (fun hc => by cs) fun hc => by cs), neg_neg,
      (partials_ok dirs).comm j i, show a i j * u * D dirs i (D dirs j v) = u * (a i j * D dirs i (D dirs j v)) by ring]
  have d1 : Compact (v * (dirs.map fun i => D dirs i (b i * u)).sum) := by
    rw [hw]
    exact compact_sum _ fun i _ => c1 i
  have d2 : Compact (v * (dirs.map fun i => (dirs.map fun j => D dirs i (D dirs j (a i j * u))).sum).sum) := by
    simp only [hw]
    exact compact_sum _ fun i _ => compact_sum _ fun j _ => c2 i j
  have d3 : Compact (u * (dirs.map fun i => b i * D dirs i v).sum) := by
    rw [hw]
    exact compact_sum _ fun i _ => c3 i
  have d4 : Compact (u * (dirs.map fun i => (dirs.map fun j => a i j * D dirs i (D dirs j v)).sum).sum) := by
    simp only [hw]
    exact compact_sum _ fun i _ => compact_sum _ fun j _ => c4 i j
  rw [forward, backward, show ∀ S T : Smooth dirs.length, v * (-S + T) = v * T - v * S from fun S T => by ring, mul_add, integral_sub d2 d1,
    integral_add d3 d4, e1, e2]
  ring

/-! ## One dimension -/

section line
local notation "∂" => D [0] 0
variable {β : ℝ} (hβ : β ≠ 0) (V : Smooth [0].length)
include hβ

omit hβ in
theorem fp_acts (u : Smooth [0].length) : acts (D [0]) [0] (fokker_planck_1d (D [0]) Smooth.inv (const β) V) u = ∂ (∂ V * u + Smooth.inv (const β) * ∂ u) :=
  fokker_planck_acts (partials_ok [0]) (depends [0] u) _ _

/-- **C77.** The Fokker-Planck operator maps the density `e^(-β V)` to zero. -/
theorem C77_fokker_planck_kernel : acts (D [0]) [0] (fokker_planck_1d (D [0]) Smooth.inv (const β) V) (gibbs β V) = 0 := by
  have hb : const β * Smooth.inv (const β) = (1 : Smooth [0].length) := const_mul_inv hβ
  rw [fp_acts, D_gibbs]
  rw [show ∂ V * gibbs β V + Smooth.inv (const β) * -(const β * ∂ V * gibbs β V) = 0 by linear_combination (-(∂ V * gibbs β V)) * hb]
  exact (partials_ok [0]).zero 0


omit hβ in
/-- **C77.** It conserves mass. -/
theorem C77_fokker_planck_mass (β : Smooth [0].length) : ConservesMass [0] (fokker_planck_1d (D [0]) Smooth.inv β V) := by
  intro u hu
  rw [fokker_planck_acts (partials_ok [0]) (depends [0] u)]
  exact integral_D (by cs)

/-- **C77.** It is the adjoint of the generator of the overdamped Langevin equation with the same parameters. -/
theorem C77_fokker_planck_adjoint :
    Adjoint [0] (fokker_planck_1d (D [0]) Smooth.inv (const β) V) (overdamped_backward (D [0]) Smooth.inv (const β) V) := by
  intro u v huv
  have h := partials_ok [0]
  have e : v * ∂ (∂ V * u + Smooth.inv (const β) * ∂ u) - u * (-(∂ V * ∂ v) + Smooth.inv (const β) * ∂ (∂ v)) =
      ∂ (v * (∂ V * u + Smooth.inv (const β) * ∂ u) - Smooth.inv (const β) * (u * ∂ v)) := by
    simp only [h.add, h.sub, h.mul, D_inv_const hβ]
    ring
  rw [fp_acts, overdamped_acts h (depends [0] v), ← sub_eq_zero]
  rcases huv with hc | hc <;> rw [← integral_sub (by cs) (by cs), e] <;> exact integral_D (by cs)

/-- **C77.** The generator of the overdamped Langevin equation is reversible with respect to the density `ρ = e^(-β V)`: the Fokker-Planck
operator maps `ρ v` to `ρ L v`, and `∫ ρ v L u = -(1/β) ∫ ρ u' v'`. -/
theorem C77_overdamped_reversible :
    (∀ v, acts (D [0]) [0] (fokker_planck_1d (D [0]) Smooth.inv (const β) V) (gibbs β V * v) =
      gibbs β V * acts (D [0]) [0] (overdamped_backward (D [0]) Smooth.inv (const β) V) v) ∧
    ∀ u v, Compact u ∨ Compact v → integral (gibbs β V * (v * acts (D [0]) [0] (overdamped_backward (D [0]) Smooth.inv (const β) V) u)) =
      -integral (const β⁻¹ * (gibbs β V * (∂ u * ∂ v))) := by
  have h := partials_ok [0]
  have hb : const β * Smooth.inv (const β) = (1 : Smooth [0].length) := const_mul_inv hβ
  refine ⟨fun v => ?_, fun u v huv => ?_⟩
  · rw [fp_acts, overdamped_acts h (depends [0] v)]
    have e : ∂ V * (gibbs β V * v) + Smooth.inv (const β) * ∂ (gibbs β V * v) = Smooth.inv (const β) * (gibbs β V * ∂ v) := by
      rw [h.mul, D_gibbs]
      linear_combination (-(∂ V * gibbs β V * v)) * hb
    rw [e, h.mul, h.mul, D_gibbs, D_inv_const hβ]
    linear_combination (-(∂ V * gibbs β V * ∂ v)) * hb
  · have e : gibbs β V * (v * (-(∂ V * ∂ u) + Smooth.inv (const β) * ∂ (∂ u))) + Smooth.inv (const β) * (gibbs β V * (∂ u * ∂ v)) =
        ∂ (Smooth.inv (const β) * (gibbs β V * (v * ∂ u))) := by
      simp only [h.mul, D_gibbs, D_inv_const hβ]
      linear_combination (∂ V * gibbs β V * v * ∂ u) * hb
    rw [overdamped_acts h (depends [0] u), ← inv_const hβ, eq_neg_iff_add_eq_zero]
    rcases huv with hc | hc <;> rw [← integral_add (by cs) (by cs), e] <;> exact integral_D (by cs)

/-- **C77.** Mapped by `e^(-β V / 2)`, the Fokker-Planck operator is the Schrödinger operator with the potential `β V'² / 4 - V'' / 2`. -/
theorem C77_fokker_planck_schrodinger (u : Smooth [0].length) :
    acts (D [0]) [0] (map_operator (D [0]) Smooth.inv [0] (fokker_planck_1d (D [0]) Smooth.inv (const β) V) (gibbs (β / 2) V)) u =
      const β⁻¹ * ∂ (∂ u) - (const (β / 4) * (∂ V * ∂ V) - const (1 / 2) * ∂ (∂ V)) * u := by
  have h := partials_ok [0]
  have hb : const β * Smooth.inv (const β) = (1 : Smooth [0].length) := const_mul_inv hβ
  have hg : gibbs (β / 2) V * Smooth.inv (gibbs (β / 2) V) = 1 := mul_inv fun x => (gibbs_pos _ _ x).ne'
  have h2 : (const (β / 2) : Smooth [0].length) = const β * const (1 / 2) := by
    ext x
    exact div_eq_mul_one_div β 2
  have h4 : (const (β / 4) : Smooth [0].length) = const β * (const (1 / 2) * const (1 / 2)) := by
    ext x
    change β / 4 = β * (1 / 2 * (1 / 2))
    ring
  have h1 : (const (1 / 2) : Smooth [0].length) + const (1 / 2) = 1 := by
    ext x
    exact add_halves 1
  have e : ∂ (∂ V * (gibbs (β / 2) V * u) + Smooth.inv (const β) * ∂ (gibbs (β / 2) V * u)) = gibbs (β / 2) V *
      (Smooth.inv (const β) * ∂ (∂ u) - (const (β / 4) * (∂ V * ∂ V) - const (1 / 2) * ∂ (∂ V)) * u) := by
    simp only [h.add, h.mul, h.neg, D_gibbs, D_inv_const hβ, D_const]
    rw [h2, h4]
    generalize gibbs (β / 2) V = g
    linear_combination (-(const (1 / 2) * ∂ (∂ V) * g * u) + const β * const (1 / 2) * const (1 / 2) * (∂ V * ∂ V) * g * u -
      2 * const (1 / 2) * ∂ V * g * ∂ u) * hb + (-(∂ (∂ V) * g * u) + const β * const (1 / 2) * (∂ V * ∂ V) * g * u - ∂ V * g * ∂ u) * h1
  rw [C77_map_operator h _ _ _ (depends [0] u), fp_acts, e, ← inv_const hβ, ← mul_assoc, mul_comm (Smooth.inv _), hg, one_mul]

/-- **C77.** This operator is symmetric. -/
theorem C77_schrodinger_symmetric :
    Adjoint [0] (map_operator (D [0]) Smooth.inv [0] (fokker_planck_1d (D [0]) Smooth.inv (const β) V) (gibbs (β / 2) V))
      (map_operator (D [0]) Smooth.inv [0] (fokker_planck_1d (D [0]) Smooth.inv (const β) V) (gibbs (β / 2) V)) := by
  intro u v huv
  have h := partials_ok [0]
  rw [C77_fokker_planck_schrodinger hβ, C77_fokker_planck_schrodinger hβ, ← sub_eq_zero]
  have e : ∀ W : Smooth [0].length, v * (const β⁻¹ * ∂ (∂ u) - W * u) - u * (const β⁻¹ * ∂ (∂ v) - W * v) =
      ∂ (const β⁻¹ * (v * ∂ u - u * ∂ v)) := by
    intro W
    simp only [h.mul, h.sub, D_const]
    ring
  rcases huv with hc | hc <;> rw [← integral_sub (by cs) (by cs), e] <;> exact integral_D (by cs)

/-- **C77.** The McKean-Vlasov operator with white noise conserves mass, and the density `e^(-β (V + θ (x - m)²/2))` is stationary. -/
theorem C77_mv_white (θ m : ℝ) :
    ConservesMass [0] (mv_white (D [0]) (X [0]) Smooth.inv (const β) (const θ) (const m) V) ∧
    acts (D [0]) [0] (mv_white (D [0]) (X [0]) Smooth.inv (const β) (const θ) (const m) V)
      (gibbs β (V + const (θ / 2) * ((X [0] 0 - const m) * (X [0] 0 - const m)))) = 0 := by
  have h := partials_ok [0]
  have hb : const β * Smooth.inv (const β) = (1 : Smooth [0].length) := const_mul_inv hβ
  constructor
  · intro u hu
    rw [mv_white_acts h (depends [0] u)]
    exact integral_D (by cs)
  · rw [mv_white_acts h (depends [0] _), D_gibbs, D_confine _ _ _ (by simp), if_pos rfl]
    generalize gibbs β _ = ρ
    rw [show ∂ V * ρ + const θ * (X [0] 0 - const m) * ρ + Smooth.inv (const β) * -(const β * (∂ V + const θ * (X [0] 0 - const m)) * ρ) = 0 by
      linear_combination (-((∂ V + const θ * (X [0] 0 - const m)) * ρ)) * hb]
    exact h.zero 0

omit hβ in
/-- **C77.** The operators are those of the diffusion processes they are meant for: the forward operators of
`dx = -V' dt + √(2/β) dW` and `dx = (-V' - θ (x - m)) dt + √(2/β) dW`, and the backward operator of the first. -/
theorem C77_line_sde {K : Type} [CommRing K] {D : ℕ → K → K} (h : Partials D) {X : ℕ → K} {inv : K → K} {β V : K} (hb : D 0 (inv β) = 0) {u : K}
    (hu : DependsOn D [0] u) (θ m : K) :
    acts D [0] (fokker_planck_1d D inv β V) u = forward D [0] (fun _ => -D 0 V) (fun _ _ => inv β) u ∧
    acts D [0] (overdamped_backward D inv β V) u = backward D [0] (fun _ => -D 0 V) (fun _ _ => inv β) u ∧
    acts D [0] (mv_white D X inv β θ m V) u = forward D [0] (fun _ => -D 0 V - θ * (X 0 - m)) (fun _ _ => inv β) u := by
  refine ⟨?_, ?_, ?_⟩
  · rw [fokker_planck_acts h hu]
    simp only [forward, List.map_cons, List.map_nil, List.sum_cons, List.sum_nil, add_zero, h.add, h.sub, h.neg, h.mul, hb, h.zero]
    ring
  · rw [overdamped_acts h hu]
    simp only [backward, List.map_cons, List.map_nil, List.sum_cons, List.sum_nil, add_zero]
    ring
  · rw [mv_white_acts h hu]
    simp only [forward, List.map_cons, List.map_nil, List.sum_cons, List.sum_nil, add_zero, h.add, h.sub, h.neg, h.mul, hb, h.zero]
    ring

end line

/-! ## Coloured noise -/

section plane
local notation "∂x" => D [0, 1] 0
local notation "∂y" => D [0, 1] 1
local notation "x" => X [0, 1] 0
local notation "y" => X [0, 1] 1

theorem sum_D2 {F G : Smooth [0, 1].length} (hF : Compact F) (hG : Compact G) : integral (∂x F + ∂y G) = 0 := by
  rw [integral_add (by cs) (by cs), integral_D hF, integral_D hG, add_zero]

/-- **C77.** The McKean-Vlasov operator with coloured noise conserves mass, for all parameters. -/
theorem C77_mv_mass (β γ ε θ m V Vy noise : Smooth [0, 1].length) :
    ConservesMass [0, 1] (mv (D [0, 1]) (X [0, 1]) Smooth.inv β γ ε θ m V Vy noise) := by
  intro u hu
  rw [mv_acts (partials_ok _) (depends _ u)]
  exact sum_D2 (by cs) (by cs)

/-- **C77.** If `γ = 1`, then the noise does not act on `x`, and the density `e^(-β (V + θ (x - m)²/2)) e^(-Vy)` is stationary. -/
theorem C77_mv_kernel {β : ℝ} (hβ : β ≠ 0) (ε θ m : ℝ) (noise : Smooth [0, 1].length) {V Vy : Smooth [0, 1].length} (hV : DependsOn (D [0, 1]) [0] V)
    (hVy : DependsOn (D [0, 1]) [1] Vy) :
    acts (D [0, 1]) [0, 1] (mv (D [0, 1]) (X [0, 1]) Smooth.inv (const β) 1 (const ε) (const θ) (const m) V Vy noise)
      (gibbs β (V + const (θ / 2) * ((x - const m) * (x - const m))) * gibbs 1 Vy) = 0 := by
  have h := partials_ok [0, 1]
  have hb : const β * Smooth.inv (const β) = (1 : Smooth [0, 1].length) := const_mul_inv hβ
  have g0 : ∂x (gibbs β (V + const (θ / 2) * ((x - const m) * (x - const m))) * gibbs 1 Vy) = -(const β * (∂x V + const θ * (x - const m)) *
      (gibbs β (V + const (θ / 2) * ((x - const m) * (x - const m))) * gibbs 1 Vy)) := by
    rw [h.mul, D_gibbs, D_gibbs, D_confine _ _ _ (by simp), if_pos rfl, hVy 0 (by simp)]
    ring
  have g1 : ∂y (gibbs β (V + const (θ / 2) * ((x - const m) * (x - const m))) * gibbs 1 Vy) = -(∂y Vy *
      (gibbs β (V + const (θ / 2) * ((x - const m) * (x - const m))) * gibbs 1 Vy)) := by
    rw [h.mul, D_gibbs, D_gibbs, D_confine _ _ _ (by simp), if_neg (by simp), hV 1 (by simp), show (const 1 : Smooth [0, 1].length) = 1 from rfl]
    ring
  rw [mv_acts h (depends _ _), g0, g1]
  generalize gibbs β _ * gibbs 1 Vy = ρ
  rw [show ∂x V * ρ + const θ * (x - const m) * ρ - (1 - 1) * noise * y * Smooth.inv (const ε) * ρ +
      1 ^ 2 * Smooth.inv (const β) * -(const β * (∂x V + const θ * (x - const m)) * ρ) = 0 by
    linear_combination (-((∂x V + const θ * (x - const m)) * ρ)) * hb]
  rw [show Smooth.inv (const ε) ^ 2 * (∂y Vy * ρ + -(∂y Vy * ρ)) = 0 by ring, h.zero, h.zero, add_zero]

/-- **C77.** With coloured noise, it is the forward operator of `dx = (-V' - θ (x - m) + (1 - γ) c y / ε) dt + γ √(2/β) dW`,
`dy = -Vy' / ε² dt + √2 / ε dW'`. -/
theorem C77_mv_sde {K : Type} [CommRing K] {D : ℕ → K → K} (h : Partials D) {X : ℕ → K} {inv : K → K} {β γ ε : K} (hb : D 0 (inv β) = 0)
    (hg : D 0 γ = 0) (he : D 1 (inv ε) = 0) {u : K} (hu : DependsOn D [0, 1] u) (θ m V Vy c : K) :
    acts D [0, 1] (mv D X inv β γ ε θ m V Vy c) u =
      forward D [0, 1] (fun i => if i = 0 then -D 0 V - θ * (X 0 - m) + (1 - γ) * c * X 1 * inv ε else -(inv ε ^ 2 * D 1 Vy))
        (fun i j => if i = j then if i = 0 then γ ^ 2 * inv β else inv ε ^ 2 else 0) u := by
  rw [mv_acts h hu]
  simp only [forward, List.map_cons, List.map_nil, List.sum_cons, List.sum_nil, add_zero, zero_ne_one, one_ne_zero, if_true, if_false, pow_two, zero_mul,
    zero_add, h.add, h.sub, h.neg, h.mul, hb, hg, he, h.zero, h.one, mul_zero]
  ring

/-! ## Langevin equations -/

/-- **C77.** The forward operator of the Langevin equation `dx = (-y - λ x) dt + √(2 λ) dW`, `dy = x dt`, and the backward operator of
`dx = (-Vy' - γ x) dt + √(2 γ/β) dW`, `dy = x dt`. -/
theorem C77_langevin_sde {K : Type} [CommRing K] {D : ℕ → K → K} (h : Partials D) {X : ℕ → K} (x0 : D 0 (X 0) = 1) (x1 : D 1 (X 0) = 0)
    (y0 : D 0 (X 1) = 0) {inv : K → K} {lam : K} (hl : D 0 lam = 0) {u : K} (hu : DependsOn D [0, 1] u) (γ β Vy : K) :
    acts D [0, 1] (langevin_forward D X lam) u =
      forward D [0, 1] (fun i => if i = 0 then -X 1 - lam * X 0 else X 0) (fun i j => if i = 0 ∧ j = 0 then lam else 0) u ∧
    acts D [0, 1] (langevin_backward D X inv γ β Vy) u =
      backward D [0, 1] (fun i => if i = 0 then -D 1 Vy - γ * X 0 else X 0) (fun i j => if i = 0 ∧ j = 0 then γ * inv β else 0) u := by
  constructor
  · rw [langevin_forward_acts h hu]
    simp only [forward, List.map_cons, List.map_nil, List.sum_cons, List.sum_nil, add_zero, one_ne_zero, and_true, true_and, and_false, false_and, if_true,
      if_false, zero_mul, zero_add, h.add, h.sub, h.neg, h.mul, hl, x0, x1, y0, h.zero, h.one, mul_zero]
    ring
  · rw [langevin_backward_acts h hu]
    simp only [backward, List.map_cons, List.map_nil, List.sum_cons, List.sum_nil, add_zero, one_ne_zero, and_true, true_and, and_false, false_and, if_true,
      if_false, zero_mul, zero_add]
    ring

/-- **C77.** The forward operator of the Langevin equation conserves mass, and the Gaussian density `e^(-(x² + y²)/2)` is stationary. -/
theorem C77_langevin_forward (lam : ℝ) :
    ConservesMass [0, 1] (langevin_forward (D [0, 1]) (X [0, 1]) (const lam)) ∧
    acts (D [0, 1]) [0, 1] (langevin_forward (D [0, 1]) (X [0, 1]) (const lam)) (gibbs 1 (kinetic [0, 1] 0 + kinetic [0, 1] 1)) = 0 := by
  have h := partials_ok [0, 1]
  have h1 : (const 1 : Smooth [0, 1].length) = 1 := rfl
  have x0 : ∂x x = 1 := by rw [D_X (by simp), if_pos rfl]
  have x1 : ∂y x = 0 := by rw [D_X (by simp), if_neg (by simp)]
  have y0 : ∂x y = 0 := by rw [D_X (by simp), if_neg (by simp)]
  constructor
  · intro u hu
    rw [langevin_forward_acts h (depends _ u), show -(x * ∂y u) + y * ∂x u + const lam * ∂x (x * u + ∂x u) =
      ∂x (y * u + const lam * (x * u + ∂x u)) + ∂y (-(x * u)) by simp only [h.add, h.mul, h.neg, D_const, y0, x1]; ring]
    exact sum_D2 (by cs) (by cs)
  · have g0 : ∂x (gibbs 1 (kinetic [0, 1] 0 + kinetic [0, 1] 1)) = -(x * gibbs 1 (kinetic [0, 1] 0 + kinetic [0, 1] 1)) := by
      rw [D_gibbs, h.add, D_kinetic (by simp), D_kinetic (by simp), if_pos rfl, if_neg (by simp), h1]
      ring
    have g1 : ∂y (gibbs 1 (kinetic [0, 1] 0 + kinetic [0, 1] 1)) = -(y * gibbs 1 (kinetic [0, 1] 0 + kinetic [0, 1] 1)) := by
      rw [D_gibbs, h.add, D_kinetic (by simp), D_kinetic (by simp), if_neg (by simp), if_pos rfl, h1]
      ring
    rw [langevin_forward_acts h (depends _ _), g0, g1, add_neg_cancel, h.zero]
    ring

/-- **C77.** It is the adjoint of the backward operator with `β = 1`, `γ = λ` and the potential `y²/2`. -/
theorem C77_langevin_adjoint (lam : ℝ) :
    Adjoint [0, 1] (langevin_forward (D [0, 1]) (X [0, 1]) (const lam))
      (langevin_backward (D [0, 1]) (X [0, 1]) Smooth.inv (const lam) (const 1) (kinetic [0, 1] 1)) := by
  intro u v huv
  have h := partials_ok [0, 1]
  have x0 : ∂x x = 1 := by rw [D_X (by simp), if_pos rfl]
  have x1 : ∂y x = 0 := by rw [D_X (by simp), if_neg (by simp)]
  have y0 : ∂x y = 0 := by rw [D_X (by simp), if_neg (by simp)]
  have hi : Smooth.inv (const 1 : Smooth [0, 1].length) = 1 := by
    rw [inv_const one_ne_zero]
    ext z
    exact inv_one
  rw [langevin_forward_acts h (depends _ u), langevin_backward_acts h (depends _ v), D_kinetic (by simp), if_pos rfl, hi, ← sub_eq_zero]
  have e : v * (-(x * ∂y u) + y * ∂x u + const lam * ∂x (x * u + ∂x u)) - u * (x * ∂y v - y * ∂x v + const lam * (-(x * ∂x v) + 1 * ∂x (∂x v))) =
      ∂x (y * (u * v) + const lam * (v * (x * u + ∂x u) - u * ∂x v)) + ∂y (-(x * (u * v))) := by
    simp only [h.add, h.sub, h.mul, h.neg, D_const, x0, x1, y0]
    ring
  rcases huv with hc | hc <;> rw [← integral_sub (by cs) (by cs), e] <;> exact sum_D2 (by cs) (by cs)

/-- **C77.** The backward operator of the Langevin equation has the invariant density `e^(-β (x²/2 + Vy))`. -/
theorem C77_langevin_backward {β : ℝ} (hβ : β ≠ 0) (γ : ℝ) {Vy : Smooth [0, 1].length} (hV : DependsOn (D [0, 1]) [1] Vy) :
    Invariant [0, 1] (gibbs β (kinetic [0, 1] 0 + Vy)) (langevin_backward (D [0, 1]) (X [0, 1]) Smooth.inv (const γ) (const β) Vy) := by
  intro u hu
  have h := partials_ok [0, 1]
  have hb : const β * Smooth.inv (const β) = (1 : Smooth [0, 1].length) := const_mul_inv hβ
  have x1 : ∂y x = 0 := by rw [D_X (by simp), if_neg (by simp)]
  have v0 : ∂x Vy = 0 := hV 0 (by simp)
  have g0 : ∂x (gibbs β (kinetic [0, 1] 0 + Vy)) = -(const β * x * gibbs β (kinetic [0, 1] 0 + Vy)) := by
    rw [D_gibbs, h.add, D_kinetic (by simp), if_pos rfl, v0, add_zero]
  have g1 : ∂y (gibbs β (kinetic [0, 1] 0 + Vy)) = -(const β * ∂y Vy * gibbs β (kinetic [0, 1] 0 + Vy)) := by
    rw [D_gibbs, h.add, D_kinetic (by simp), if_neg (by simp), zero_add]
  have v1 : ∂x (∂y Vy) = 0 := by rw [h.comm, v0, h.zero]
  rw [langevin_backward_acts h (depends _ u)]
  generalize gibbs β _ = ρ at *
  rw [show ρ * (x * ∂y u - ∂y Vy * ∂x u + const γ * (-(x * ∂x u) + Smooth.inv (const β) * ∂x (∂x u))) =
      ∂x (-(∂y Vy * (ρ * u)) + const γ * (Smooth.inv (const β) * (ρ * ∂x u))) + ∂y (ρ * (x * u)) by
    simp only [h.add, h.mul, h.neg, D_const, D_inv_const hβ, x1, g0, g1, v1]
    linear_combination (const γ * x * ρ * ∂x u) * hb]
  exact sum_D2 (by cs) (by cs)

/-- **C77.** Without auxiliary process, the backward operator of the generalized Langevin equation is that of the Langevin equation with the
friction `γ`: it has the invariant density `e^(-β (V + y²/2))`. -/
theorem C77_gle_none {β : ℝ} (hβ : β ≠ 0) (γ : ℝ) {V : Smooth [0, 1].length} (hV : DependsOn (D [0, 1]) [0] V) :
    ∃ T, gle_backward (D [0, 1]) (X [0, 1]) Smooth.inv (const β) V (.none (some (const γ))) = .ok T ∧
      Invariant [0, 1] (gibbs β (V + kinetic [0, 1] 1)) T := by
  refine ⟨_, rfl, fun u hu => ?_⟩
  have h := partials_ok [0, 1]
  have hb : const β * Smooth.inv (const β) = (1 : Smooth [0, 1].length) := const_mul_inv hβ
  have y0 : ∂x y = 0 := by rw [D_X (by simp), if_neg (by simp)]
  have v0 : ∂y V = 0 := hV 1 (by simp)
  have g0 : ∂x (gibbs β (V + kinetic [0, 1] 1)) = -(const β * ∂x V * gibbs β (V + kinetic [0, 1] 1)) := by
    rw [D_gibbs, h.add, D_kinetic (by simp), if_neg (by simp), add_zero]
  have g1 : ∂y (gibbs β (V + kinetic [0, 1] 1)) = -(const β * y * gibbs β (V + kinetic [0, 1] 1)) := by
    rw [D_gibbs, h.add, D_kinetic (by simp), if_pos rfl, v0, zero_add]
  have v1 : ∂y (∂x V) = 0 := by rw [h.comm, v0, h.zero]
  rw [gle_none_acts h (depends _ u)]
  generalize gibbs β _ = ρ at *
  rw [show ρ * (y * ∂x u - ∂x V * ∂y u + const γ * (-(y * ∂y u) + Smooth.inv (const β) * ∂y (∂y u))) =
      ∂x (ρ * (y * u)) + ∂y (-(∂x V * (ρ * u)) + const γ * (Smooth.inv (const β) * (ρ * ∂y u))) by
    simp only [h.add, h.mul, h.neg, D_const, D_inv_const hβ, y0, g0, g1, v1]
    linear_combination (const γ * y * ρ * ∂y u) * hb]
  exact sum_D2 (by cs) (by cs)

end plane

/-! ## Three and four dimensions -/

section space
local notation "∂x" => D [0, 1, 2] 0
local notation "∂y" => D [0, 1, 2] 1
local notation "∂z" => D [0, 1, 2] 2
local notation "x" => X [0, 1, 2] 0
local notation "y" => X [0, 1, 2] 1
local notation "z" => X [0, 1, 2] 2

theorem sum_D3 {F G H : Smooth [0, 1, 2].length} (hF : Compact F) (hG : Compact G) (hH : Compact H) : integral (∂x F + ∂y G + ∂z H) = 0 := by
  rw [integral_add (by cs) (by cs), integral_add (by cs) (by cs), integral_D hF, integral_D hG, integral_D hH, add_zero, add_zero]

/-- **C77.** The McKean-Vlasov operator with harmonic noise conserves mass, for all parameters. -/
theorem C77_harmonic_mass (β γ ε θ m V root : Smooth [0, 1, 2].length) :
    ConservesMass [0, 1, 2] (harmonic (D [0, 1, 2]) (X [0, 1, 2]) Smooth.inv β γ ε θ m V root) := by
  intro u hu
  rw [harmonic_acts (partials_ok _) (depends _ u), sub_eq_add_neg, ← (partials_ok _).neg]
  exact sum_D3 (by cs) (by cs) (by cs)

/-- **C77.** If `γ = 1`, then the density `e^(-β (V + θ (x - m)²/2)) e^(-(y² + z²)/2)` is stationary. -/
theorem C77_harmonic_kernel {β ε : ℝ} (hβ : β ≠ 0) (hε : ε ≠ 0) (θ m : ℝ) (root : Smooth [0, 1, 2].length) {V : Smooth [0, 1, 2].length}
    (hV : DependsOn (D [0, 1, 2]) [0] V) :
    acts (D [0, 1, 2]) [0, 1, 2] (harmonic (D [0, 1, 2]) (X [0, 1, 2]) Smooth.inv (const β) 1 (const ε) (const θ) (const m) V root)
      (gibbs β (V + const (θ / 2) * ((x - const m) * (x - const m))) * gibbs 1 (kinetic [0, 1, 2] 1 + kinetic [0, 1, 2] 2)) = 0 := by
  have h := partials_ok [0, 1, 2]
  have hb : const β * Smooth.inv (const β) = (1 : Smooth [0, 1, 2].length) := const_mul_inv hβ
  have h1 : (const 1 : Smooth [0, 1, 2].length) = 1 := rfl
  set ρ := gibbs β (V + const (θ / 2) * ((x - const m) * (x - const m))) * gibbs 1 (kinetic [0, 1, 2] 1 + kinetic [0, 1, 2] 2) with hρ
  have g0 : ∂x ρ = -(const β * (∂x V + const θ * (x - const m)) * ρ) := by
    rw [hρ, h.mul, D_gibbs, D_gibbs, D_confine _ _ _ (by simp), if_pos rfl, h.add, D_kinetic (by simp), D_kinetic (by simp), if_neg (by simp),
      if_neg (by simp)]
    ring
  have g1 : ∂y ρ = -(y * ρ) := by
    rw [hρ, h.mul, D_gibbs, D_gibbs, D_confine _ _ _ (by simp), if_neg (by simp), hV 1 (by simp), h.add, D_kinetic (by simp), D_kinetic (by simp),
      if_pos rfl, if_neg (by simp), h1]
    ring
  have g2 : ∂z ρ = -(z * ρ) := by
    rw [hρ, h.mul, D_gibbs, D_gibbs, D_confine _ _ _ (by simp), if_neg (by simp), hV 2 (by simp), h.add, D_kinetic (by simp), D_kinetic (by simp),
      if_neg (by simp), if_pos rfl, h1]
    ring
  have y2 : ∂z y = 0 := by rw [D_X (by simp), if_neg (by simp)]
  have z1 : ∂y z = 0 := by rw [D_X (by simp), if_neg (by simp)]
  rw [harmonic_acts h (depends _ _), g0, g1]
  clear_value ρ
  rw [show ∂x V * ρ + const θ * (x - const m) * ρ - (1 - 1) * root * z * Smooth.inv (const ε) * ρ +
      1 ^ 2 * Smooth.inv (const β) * -(const β * (∂x V + const θ * (x - const m)) * ρ) = 0 by
    linear_combination (-((∂x V + const θ * (x - const m)) * ρ)) * hb, h.zero, add_neg_cancel]
  simp only [h.mul, pow_two, D_inv_const hε, add_zero, g1, g2, y2, z1]
  ring

/-- **C77.** With harmonic noise, it is the forward operator of `dx = (-V' - θ (x - m) + (1 - γ) c z / ε) dt + γ √(2/β) dW`,
`dy = -(z + y) / ε² dt + √2 / ε dW'`, `dz = y / ε² dt`. -/
theorem C77_harmonic_sde {K : Type} [CommRing K] {D : ℕ → K → K} (h : Partials D) {X : ℕ → K} {inv : K → K} {β γ ε : K} (hb : D 0 (inv β) = 0)
    (hg : D 0 γ = 0) (he : D 1 (inv ε) = 0) {u : K} (hu : DependsOn D [0, 1, 2] u) (θ m V c : K) :
    acts D [0, 1, 2] (harmonic D X inv β γ ε θ m V c) u =
      forward D [0, 1, 2] (fun i => if i = 0 then -D 0 V - θ * (X 0 - m) + (1 - γ) * c * X 2 * inv ε else
          if i = 1 then -(inv ε ^ 2 * (X 2 + X 1)) else inv ε ^ 2 * X 1)
        (fun i j => if i = j then if i = 0 then γ ^ 2 * inv β else if i = 1 then inv ε ^ 2 else 0 else 0) u := by
  rw [harmonic_acts h hu]
  simp only [forward, List.map_cons, List.map_nil, List.sum_cons, List.sum_nil, add_zero, zero_ne_one, one_ne_zero, OfNat.ofNat_ne_zero,
    OfNat.ofNat_ne_one, OfNat.zero_ne_ofNat, OfNat.one_ne_ofNat, if_true, if_false, pow_two, zero_mul, zero_add, h.add, h.sub, h.neg, h.mul, hb, hg, he,
    h.zero, h.one, mul_zero]
  ring

/-- **C77.** With one auxiliary process, the backward operator of the generalized Langevin equation has the invariant density
`e^(-β (V + y²/2 + z²/2))`. -/
theorem C77_gle_one {β α : ℝ} (hβ : β ≠ 0) (hα : α ≠ 0) (lam : ℝ) {V : Smooth [0, 1, 2].length} (hV : DependsOn (D [0, 1, 2]) [0] V) :
    ∃ T, gle_backward (D [0, 1, 2]) (X [0, 1, 2]) Smooth.inv (const β) V (.one (const lam) (const α)) = .ok T ∧
      Invariant [0, 1, 2] (gibbs β (V + kinetic [0, 1, 2] 1 + kinetic [0, 1, 2] 2)) T := by
  have hα' : (const α : Smooth [0, 1, 2].length) ≠ 0 := fun e => hα (congrFun (congrArg Subtype.val e) 0)
  refine ⟨_, if_neg hα', fun u hu => ?_⟩
  have h := partials_ok [0, 1, 2]
  have hb : const β * Smooth.inv (const β) = (1 : Smooth [0, 1, 2].length) := const_mul_inv hβ
  have y0 : ∂x y = 0 := by rw [D_X (by simp), if_neg (by simp)]
  have y2 : ∂z y = 0 := by rw [D_X (by simp), if_neg (by simp)]
  have z1 : ∂y z = 0 := by rw [D_X (by simp), if_neg (by simp)]
  have v1 : ∂y V = 0 := hV 1 (by simp)
  have v2 : ∂z V = 0 := hV 2 (by simp)
  set ρ := gibbs β (V + kinetic [0, 1, 2] 1 + kinetic [0, 1, 2] 2) with hρ
  have g0 : ∂x ρ = -(const β * ∂x V * ρ) := by
    rw [hρ, D_gibbs, h.add, h.add, D_kinetic (by simp), D_kinetic (by simp), if_neg (by simp), if_neg (by simp), add_zero, add_zero]
  have g1 : ∂y ρ = -(const β * y * ρ) := by
    rw [hρ, D_gibbs, h.add, h.add, D_kinetic (by simp), D_kinetic (by simp), if_pos rfl, if_neg (by simp), v1, add_zero, zero_add]
  have g2 : ∂z ρ = -(const β * z * ρ) := by
    rw [hρ, D_gibbs, h.add, h.add, D_kinetic (by simp), D_kinetic (by simp), if_neg (by simp), if_pos rfl, v2, add_zero, zero_add]
  have w1 : ∂y (∂x V) = 0 := by rw [h.comm, v1, h.zero]
  rw [gle_one_acts h (depends _ u)]
  clear_value ρ
  rw [show ρ * (y * ∂x u - ∂x V * ∂y u + const lam * z * ∂y u - y * (const lam * ∂z u) - const α * z * ∂z u +
        Smooth.inv (const β) * (const α * ∂z (∂z u))) =
      ∂x (ρ * (y * u)) + ∂y (-(∂x V * (ρ * u)) + const lam * (z * (ρ * u))) +
        ∂z (-(const lam * (y * (ρ * u))) + Smooth.inv (const β) * (const α * (ρ * ∂z u))) by
    simp only [h.add, h.mul, h.neg, D_const, D_inv_const hβ, y0, y2, z1, g0, g1, g2, w1]
    linear_combination (const α * z * ρ * ∂z u) * hb]
  exact sum_D3 (by cs) (by cs) (by cs)

end space

section fourth
local notation "∂x" => D [0, 1, 2, 3] 0
local notation "∂y" => D [0, 1, 2, 3] 1
local notation "∂z" => D [0, 1, 2, 3] 2
local notation "∂w" => D [0, 1, 2, 3] 3
local notation "x" => X [0, 1, 2, 3] 0
local notation "y" => X [0, 1, 2, 3] 1
local notation "z" => X [0, 1, 2, 3] 2
local notation "w" => X [0, 1, 2, 3] 3

theorem sum_D4 {F G H I : Smooth [0, 1, 2, 3].length} (hF : Compact F) (hG : Compact G) (hH : Compact H) (hI : Compact I) :
    integral (∂x F + ∂y G + ∂z H + ∂w I) = 0 := by
  rw [integral_add (by cs) (by cs), integral_add (by cs) (by cs), integral_add (by cs) (by cs), integral_D hF, integral_D hG, integral_D hH,
    integral_D hI, add_zero, add_zero, add_zero]

/-- **C77.** With two auxiliary processes and a matrix `A` which is nonsingular (but need not be symmetric), the backward operator of the
generalized Langevin equation has the invariant density `e^(-β (V + y²/2 + (z² + w²)/2))`. -/
theorem C77_gle_two {β a b c d : ℝ} (hβ : β ≠ 0) (hA : a * d - b * c ≠ 0) (l₁ l₂ : ℝ) {V : Smooth [0, 1, 2, 3].length}
    (hV : DependsOn (D [0, 1, 2, 3]) [0] V) :
    ∃ T, gle_backward (D [0, 1, 2, 3]) (X [0, 1, 2, 3]) Smooth.inv (const β) V
        (.two (const l₁) (const l₂) (const a) (const b) (const c) (const d)) = .ok T ∧
      Invariant [0, 1, 2, 3] (gibbs β (V + kinetic [0, 1, 2, 3] 1 + (kinetic [0, 1, 2, 3] 2 + kinetic [0, 1, 2, 3] 3))) T := by
  have hA' : (const a * const d - const b * const c : Smooth [0, 1, 2, 3].length) ≠ 0 := fun e => hA (congrFun (congrArg Subtype.val e) 0)
  refine ⟨_, if_neg hA', fun u hu => ?_⟩
  have h := partials_ok [0, 1, 2, 3]
  have hb : const β * Smooth.inv (const β) = (1 : Smooth [0, 1, 2, 3].length) := const_mul_inv hβ
  have y0 : ∂x y = 0 := by rw [D_X (by simp), if_neg (by simp)]
  have y2 : ∂z y = 0 := by rw [D_X (by simp), if_neg (by simp)]
  have y3 : ∂w y = 0 := by rw [D_X (by simp), if_neg (by simp)]
  have z1 : ∂y z = 0 := by rw [D_X (by simp), if_neg (by simp)]
  have w1 : ∂y w = 0 := by rw [D_X (by simp), if_neg (by simp)]
  have v1 : ∂y V = 0 := hV 1 (by simp)
  have v2 : ∂z V = 0 := hV 2 (by simp)
  have v3 : ∂w V = 0 := hV 3 (by simp)
  set ρ := gibbs β (V + kinetic [0, 1, 2, 3] 1 + (kinetic [0, 1, 2, 3] 2 + kinetic [0, 1, 2, 3] 3)) with hρ
  have g0 : ∂x ρ = -(const β * ∂x V * ρ) := by
    rw [hρ, D_gibbs, h.add, h.add, h.add, D_kinetic (by simp), D_kinetic (by simp), D_kinetic (by simp), if_neg (by simp), if_neg (by simp),
      if_neg (by simp)]
    ring
  have g1 : ∂y ρ = -(const β * y * ρ) := by
    rw [hρ, D_gibbs, h.add, h.add, h.add, D_kinetic (by simp), D_kinetic (by simp), D_kinetic (by simp), if_pos rfl, if_neg (by simp),
      if_neg (by simp), v1]
    ring
  have g2 : ∂z ρ = -(const β * z * ρ) := by
    rw [hρ, D_gibbs, h.add, h.add, h.add, D_kinetic (by simp), D_kinetic (by simp), D_kinetic (by simp), if_neg (by simp), if_pos rfl,
      if_neg (by simp), v2]
    ring
  have g3 : ∂w ρ = -(const β * w * ρ) := by
    rw [hρ, D_gibbs, h.add, h.add, h.add, D_kinetic (by simp), D_kinetic (by simp), D_kinetic (by simp), if_neg (by simp), if_neg (by simp),
      if_pos rfl, v3]
    ring
  have q1 : ∂y (∂x V) = 0 := by rw [h.comm, v1, h.zero]
  rw [gle_two_acts h (depends _ u)]
  clear_value ρ
  rw [show ρ * (y * ∂x u - ∂x V * ∂y u + (const l₁ * z + const l₂ * w) * ∂y u - y * (const l₁ * ∂z u + const l₂ * ∂w u) -
        ((const a * z + const b * w) * ∂z u + (const c * z + const d * w) * ∂w u) +
        Smooth.inv (const β) * (const a * ∂z (∂z u) + const b * ∂w (∂z u) + (const c * ∂z (∂w u) + const d * ∂w (∂w u)))) =
      ∂x (ρ * (y * u)) + ∂y (-(∂x V * (ρ * u)) + (const l₁ * z + const l₂ * w) * (ρ * u)) +
        ∂z (-(const l₁ * (y * (ρ * u))) + Smooth.inv (const β) * (ρ * (const a * ∂z u + const c * ∂w u))) +
        ∂w (-(const l₂ * (y * (ρ * u))) + Smooth.inv (const β) * (ρ * (const b * ∂z u + const d * ∂w u))) by
    simp only [h.add, h.mul, h.neg, D_const, D_inv_const hβ, y0, y2, y3, z1, w1, g0, g1, g2, g3, q1]
    linear_combination (ρ * ((const a * z + const b * w) * ∂z u + (const c * z + const d * w) * ∂w u)) * hb]
  exact sum_D4 (by cs) (by cs) (by cs) (by cs)

end fourth

/-- **C77.** The generalized Langevin equation: `dx = y dt`, `dy = (-V' + λ·z) dt`, `dz = (-λ y - A z) dt + Σ dW`, where `Σ Σᵀ = (A + Aᵀ)/β`. In
the backward operator `A/β` and its symmetric part are the same. -/
theorem C77_gle_sde {K : Type} [CommRing K] [DecidableEq K] {D : ℕ → K → K} (h : Partials D) {X : ℕ → K} {inv : K → K} (β V : K) :
    (∀ lam α u, α ≠ 0 → DependsOn D [0, 1, 2] u → ∃ T, gle_backward D X inv β V (.one lam α) = .ok T ∧
      acts D [0, 1, 2] T u = backward D [0, 1, 2]
        (fun i => if i = 0 then X 1 else if i = 1 then -D 0 V + lam * X 2 else -(lam * X 1) - α * X 2)
        (fun i j => if i = 2 ∧ j = 2 then α * inv β else 0) u) ∧
    (∀ l₁ l₂ a b c d u, a * d - b * c ≠ 0 → DependsOn D [0, 1, 2, 3] u → ∃ T, gle_backward D X inv β V (.two l₁ l₂ a b c d) = .ok T ∧
      acts D [0, 1, 2, 3] T u = backward D [0, 1, 2, 3]
        (fun i => if i = 0 then X 1 else if i = 1 then -D 0 V + (l₁ * X 2 + l₂ * X 3) else
          if i = 2 then -(l₁ * X 1) - (a * X 2 + b * X 3) else -(l₂ * X 1) - (c * X 2 + d * X 3))
        (fun i j => if i = 2 ∧ j = 2 then a * inv β else if i = 2 ∧ j = 3 then b * inv β else if i = 3 ∧ j = 2 then c * inv β else
          if i = 3 ∧ j = 3 then d * inv β else 0) u) ∧
    (∀ γ u, DependsOn D [0, 1] u → ∃ T, gle_backward D X inv β V (.none (some γ)) = .ok T ∧
      acts D [0, 1] T u = backward D [0, 1] (fun i => if i = 0 then X 1 else -D 0 V - γ * X 1) (fun i j => if i = 1 ∧ j = 1 then γ * inv β else 0) u) := by
  refine ⟨fun lam α u hα hu => ⟨_, if_neg hα, ?_⟩, fun l₁ l₂ a b c d u hA hu => ⟨_, if_neg hA, ?_⟩, fun γ u hu => ⟨_, rfl, ?_⟩⟩
  · rw [gle_one_acts h hu]
    simp [backward]
    ring
  · rw [gle_two_acts h hu]
    simp [backward]
    rw [h.comm 3 2]
    ring
  · rw [gle_none_acts h hu]
    simp [backward]
    ring

/-- **C77.** What is rejected: a singular matrix `A`, and a missing friction. -/
theorem C77_gle_rejects {K : Type} [CommRing K] [DecidableEq K] (D : ℕ → K → K) (X : ℕ → K) (inv : K → K) (β V : K) :
    (∀ lam, gle_backward D X inv β V (.one lam 0) = .throws) ∧
    (∀ l₁ l₂ a b c d : K, a * d - b * c = 0 → gle_backward D X inv β V (.two l₁ l₂ a b c d) = .throws) ∧
    gle_backward D X inv β V (.none none) = .throws :=
  ⟨fun _ => if_pos rfl, fun _ _ _ _ _ _ h => if_pos h, rfl⟩

/-! ## Examples -/

/-- There are functions with compact support, other than zero, in any dimension. -/
theorem exists_compact (n : ℕ) : ∃ u : Smooth n, Compact u ∧ (u : (Fin n → ℝ) → ℝ) 0 = 1 := by
  let f : ContDiffBump (0 : Fin n → ℝ) := ⟨1, 2, by norm_num, by norm_num⟩
  exact ⟨⟨f, mem_iff.2 f.contDiff⟩, ⟨f.hasCompactSupport⟩, f.one_of_mem_closedBall (by simpa using f.rIn_pos.le)⟩

/-- The Fokker-Planck operator for `V = x²/2` and `β = 2` maps `e^(-x²)` to zero; this function is not zero. -/
example : acts (D [0]) [0] (fokker_planck_1d (D [0]) Smooth.inv (const 2) (kinetic [0] 0)) (gibbs 2 (kinetic [0] 0)) = 0 ∧
    gibbs 2 (kinetic [0] 0) ≠ 0 :=
  ⟨C77_fokker_planck_kernel two_ne_zero _, fun e => (gibbs_pos 2 (kinetic [0] 0) 0).ne' (congrFun (congrArg Subtype.val e) 0)⟩

/-- The potential `x²/2` depends on `x` only: the invariant density of the generalized Langevin equation with a matrix which is not symmetric. -/
example : ∃ T, gle_backward (D [0, 1, 2, 3]) (X [0, 1, 2, 3]) Smooth.inv (const 3) (kinetic [0, 1, 2, 3] 0)
      (.two (const 1) (const 0) (const 0) (const (-1)) (const 1) (const 1)) = .ok T ∧
    Invariant [0, 1, 2, 3] (gibbs 3 (kinetic [0, 1, 2, 3] 0 + kinetic [0, 1, 2, 3] 1 + (kinetic [0, 1, 2, 3] 2 + kinetic [0, 1, 2, 3] 3))) T :=
  C77_gle_two (by norm_num) (by norm_num) 1 0 fun d hd => by
    rw [D_kinetic (by simp), if_neg (by simpa using hd)]

/-- The density matters: the Lebesgue measure is not stationary for the Fokker-Planck operator with `V = x²/2`. -/
example : acts (D [0]) [0] (fokker_planck_1d (D [0]) Smooth.inv (const 2) (kinetic [0] 0)) 1 = 1 := by
  have h := partials_ok [0]
  rw [fp_acts, D_kinetic (by simp), if_pos rfl, h.one, mul_zero, mul_one, add_zero, D_X (by simp), if_pos rfl]

/-- The conditions on the ring hold for smooth functions. -/
example (u : Smooth [0, 1].length) : acts (D [0, 1]) [0, 1] (langevin_forward (D [0, 1]) (X [0, 1]) (const 3)) u =
    forward (D [0, 1]) [0, 1] (fun i => if i = 0 then -X [0, 1] 1 - const 3 * X [0, 1] 0 else X [0, 1] 0)
      (fun i j => if i = 0 ∧ j = 0 then const 3 else 0) u :=
  (C77_langevin_sde (partials_ok [0, 1]) (by rw [D_X (by simp), if_pos rfl]) (by rw [D_X (by simp), if_neg (by simp)])
    (by rw [D_X (by simp), if_neg (by simp)]) (inv := Smooth.inv) (D_const _ _ _) (depends _ u) 0 0 0).1

end Hermipy.Props
