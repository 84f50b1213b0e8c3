import Verif.Lemmas.Lockstep
import Verif.Lemmas.TripleFourierTable
import Verif.Lemmas.TripleRoundedErr

/-! # Rounding errors of the table of Fourier triple products -/

namespace Hermipy

open Spec

variable {α : Type} [Doubles α] {val : α → ℝ} {u : ℝ}

/-- The number is right up to a relative error. -/
def Near (val : α → ℝ) (u : ℝ) (c : α) (x : ℝ) : Prop := Approx u 16 (val c) x |x|

theorem Rel.near {k : ℕ} {c : α} {x : ℝ} (hu : 0 ≤ u) (h : Rel u k (val c) x) (hk : k ≤ 16) : Near val u c x := by
  have := (h.approx hu).mono hu hk
  rw [Near, abs_of_pos h.pos]
  exact this

theorem Spec.Accurate.mul_rel (A : Accurate α val u) {k k' : ℕ} {x y : α} {a b : ℝ} (h : Rel u k (val x) a) (h' : Rel u k' (val y) b) :
    Rel u (k + k' + 2) (val (x * y)) (a * b) := by
  have h2 := h.mul A.nonneg h'
  refine h2.round A.nonneg A.small ?_
  have := A.mul x y
  rwa [abs_of_pos h2.pos'] at this

theorem triple_products_fourierF_rel (A : AccurateD α val u) (n : ℕ) :
    OutRel (CubeRel (Near val u)) (triple_products_fourierF n) (triple_products_fourier n) := by
  have two : Rel u 0 (val (Floats.ofNat 2 : α)) 2 := by
    rw [A.ofNat 2 (by norm_num)]
    exact Rel.refl (by norm_num)
  have v0 : Near val u (Floats.ofNat 2 * Floats.pi / (Floats.sqrt (Floats.ofNat 2 * Floats.pi) * (Floats.ofNat 2 * Floats.pi)))
      (2 * Real.pi / (√(2 * Real.pi) * (2 * Real.pi))) :=
    Rel.near A.nonneg (A.div_rel A.twopi_rel (A.toAccurate.mul_rel A.roottwopi_rel A.twopi_rel)) (by norm_num)
  have v1 : Near val u (Floats.pi / (Floats.sqrt (Floats.ofNat 2 * Floats.pi) * Floats.pi)) (Real.pi / (√(2 * Real.pi) * Real.pi)) :=
    Rel.near A.nonneg (A.div_rel A.pi_rel (A.toAccurate.mul_rel A.roottwopi_rel A.pi_rel)) (by norm_num)
  have hh : Rel u 4 (val (Floats.pi / Floats.ofNat 2 : α)) (Real.pi / 2) := A.div_rel A.pi_rel two
  have hn : Rel u 7 (val (Floats.sqrt Floats.pi * Floats.pi : α)) (√Real.pi * Real.pi) := A.toAccurate.mul_rel A.rootpi_rel A.pi_rel
  have v2 : Near val u (Floats.pi / Floats.ofNat 2 / (Floats.sqrt Floats.pi * Floats.pi)) (Real.pi / 2 / (√Real.pi * Real.pi)) :=
    Rel.near A.nonneg (A.div_rel hh hn) (by norm_num)
  have pos : |(Real.pi / 2 / (√Real.pi * Real.pi))| = Real.pi / 2 / (√Real.pi * Real.pi) := abs_of_pos (by positivity)
  have v3 : Near val u (-Floats.pi / Floats.ofNat 2 / (Floats.sqrt Floats.pi * Floats.pi)) (-Real.pi / 2 / (√Real.pi * Real.pi)) := by
    have h1 := (A.pi_rel.approx A.nonneg).neg
    rw [← A.neg] at h1
    have h2 := (h1.div A.nonneg two (A.div _ _ two.pos'.ne')).div A.nonneg hn (A.div _ _ hn.pos'.ne')
    rw [Near, neg_div, neg_div, abs_neg, pos, ← neg_div, ← neg_div]
    exact h2.mono A.nonneg (by norm_num)
  have vs : ∀ p q : ℕ, Near val u (Floats.pi / Floats.ofNat 2 * cmpSignF p q / (Floats.sqrt Floats.pi * Floats.pi))
      (Real.pi / 2 * cmpSign p q / (√Real.pi * Real.pi)) := by
    intro p q
    have hs : Approx u 0 (val (cmpSignF p q : α)) (cmpSign p q) |cmpSign p q| := by
      rw [cmpSignF, cmpSign]
      by_cases h : p > q
      · rw [if_pos h, if_pos h, if_neg (by omega), A.one, sub_zero]
        exact Approx.exact A.nonneg 0 _
      · rw [if_neg h, if_neg h]
        by_cases h' : q > p
        · rw [if_pos h', if_pos h', A.neg, A.one, zero_sub]
          exact Approx.exact A.nonneg 0 _
        · rw [if_neg h', if_neg h', A.zero, sub_zero]
          exact Approx.exact A.nonneg 0 _
    have h2 := ((hh.approx A.nonneg).mul A.nonneg hs (A.mul _ _)).div A.nonneg hn (A.div _ _ hn.pos'.ne')
    have e : |Real.pi / 2 * cmpSign p q / (√Real.pi * Real.pi)| = Real.pi / 2 * |cmpSign p q| / (√Real.pi * Real.pi) := by
      rw [abs_div, abs_mul, abs_of_pos (show 0 < Real.pi / 2 by positivity), abs_of_pos (show 0 < √Real.pi * Real.pi by positivity)]
    rw [Near, e]
    exact h2.mono A.nonneg (by norm_num)
  have z : Near val u (0 : α) 0 := by
    rw [Near, abs_zero]
    exact approx_zero A.toAccurate _ le_rfl
  rw [triple_products_fourierF, triple_products_fourier]
  dsimp only
  by_cases hodd : n % 2 = 1
  · rw [if_pos hodd, if_pos hodd]
    exact rfl
  · rw [if_neg hodd, if_neg hodd]
    refine (OutRel.wr3 (CubeRel.zero z n) _ _ _ v0).bind fun _ _ h => OutRel.forFrom h fun k2 _ _ h => ?_
    refine (OutRel.wr3 h _ _ _ v1).bind fun _ _ h => (OutRel.wr3 h _ _ _ v1).bind fun _ _ h => (OutRel.wr3 h _ _ _ v1).bind fun _ _ h =>
      (OutRel.wr3 h _ _ _ v1).bind fun _ _ h => (OutRel.wr3 h _ _ _ v1).bind fun _ _ h => (OutRel.wr3 h _ _ _ v1).bind fun _ _ h =>
      (OutRel.wr3 h _ _ _ v2).bind fun _ _ h => (OutRel.wr3 h _ _ _ v3).bind fun _ _ h => (OutRel.wr3 h _ _ _ v2).bind fun _ _ h =>
      (OutRel.wr3 h _ _ _ v2).bind fun _ _ h => OutRel.forFrom h fun k3 _ _ h => ?_
    by_cases hk : k2 = k3
    · rw [if_pos hk, if_pos hk]
      exact h
    · rw [if_neg hk, if_neg hk]
      exact (OutRel.wr3 h _ _ _ v2).bind fun _ _ h => (OutRel.wr3 h _ _ _ v2).bind fun _ _ h => (OutRel.wr3 h _ _ _ v3).bind fun _ _ h =>
        (OutRel.wr3 h _ _ _ v2).bind fun _ _ h => (OutRel.wr3 h _ _ _ v2).bind fun _ _ h => (OutRel.wr3 h _ _ _ v2).bind fun _ _ h =>
        (OutRel.wr3 h _ _ _ (vs k3 k2)).bind fun _ _ h => OutRel.wr3 h _ _ _ (vs k2 k3)

theorem Forall₂.map_range {β γ : Type} {R : β → γ → Prop} {n : ℕ} {g : ℕ → γ} {l : List β} (d : β)
    (h : List.Forall₂ R l ((List.range n).map g)) :
    l = (List.range n).map (fun i => l.getD i d) ∧ ∀ i < n, R (l.getD i d) (g i) := by
  have hl : l.length = n := by simpa using h.length_eq
  refine ⟨List.ext_getElem (by simpa using hl) fun i h1 h2 => by simp [h1], fun i hi => ?_⟩
  have := (List.forall₂_iff_get.1 h).2 i (by omega) (by simpa using hi)
  simpa [hl, hi] using this

/-- The table of Fourier triple products. -/
theorem triple_products_fourierF_ok (A : AccurateD α val u) {n : ℕ} (hn : n % 2 = 0) :
    ∃ g : ℕ → ℕ → ℕ → α, triple_products_fourierF n = .ok (cubeOf (2 * n + 1) (n + 1) g) ∧
      ∀ k i j, k ≤ 2 * n → i ≤ n → j ≤ n → Approx u (tableOps 1 i j) (val (g k i j)) (triple 1 k i j) (tripleAbs 1 k i j) := by
  have h := triple_products_fourierF_rel A n
  rw [triple_products_fourier_ok hn] at h
  obtain ⟨C, e⟩ : ∃ C : List (List (List α)), triple_products_fourierF n = .ok C := by
    cases hc : (triple_products_fourierF n : Out (List (List (List α)))) with
    | ok C => exact ⟨C, rfl⟩
    | stop _ => rw [hc] at h; exact h.elim
    | diverge => rw [hc] at h; exact h.elim
  rw [e] at h
  have h : CubeRel (Near val u) C (cubeOf (2 * n + 1) (n + 1) (triple 1)) := h
  obtain ⟨e1, h1⟩ := Forall₂.map_range [] h
  refine ⟨fun k i j => ((C.getD k []).getD i []).getD j 0, ?_, fun k i j hk hi hj => ?_⟩
  · rw [e]
    congr 1
    refine e1.trans (List.map_congr_left fun k hk => ?_)
    obtain ⟨e2, h2⟩ := Forall₂.map_range [] (h1 k (List.mem_range.1 hk))
    refine e2.trans (List.map_congr_left fun i hi => ?_)
    exact (Forall₂.map_range 0 (h2 i (List.mem_range.1 hi))).1
  · obtain ⟨-, h2⟩ := Forall₂.map_range [] (h1 k (by omega))
    obtain ⟨-, h3⟩ := Forall₂.map_range 0 (h2 i (by omega))
    rw [tableOps, if_pos rfl, tripleAbs, if_pos rfl]
    exact h3 j (by omega)

end Hermipy
