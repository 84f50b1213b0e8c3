import Verif.Lemmas.QuadVarfd
import Verif.Props.Operator

/-! # Forms of differential operators -/

namespace Hermipy
open Spec
variable {F : Type}

theorem dVector_eq : ∀ dirs m : List ℕ, dVector dirs m = orderDirs dirs m
  | [], m => by simp [dVector, orderDirs]
  | d :: ds, [] => by simp [dVector, orderDirs]
  | d :: ds, m :: ms => by
    rw [dVector, dVector_eq ds ms]
    simp [orderDirs]

theorem mem_orderDirs {dirs m : List ℕ} {d : ℕ} (h : d ∈ orderDirs dirs m) : d ∈ dirs := by
  rw [orderDirs, List.mem_flatMap] at h
  obtain ⟨e, he, hd⟩ := h
  rw [(List.mem_replicate.1 hd).2]
  exact (List.of_mem_zip he).1

variable {K : Type} [CommRing K]

theorem coeffAt_cons (t : OpTerm K) (T : List (OpTerm K)) (m : List ℕ) :
    coeffAt (t :: T) m = (if t.index = m then t.coeff else 0) + coeffAt T m := by
  by_cases h : t.index = m
  · simp [coeffAt, h]
  · simp [coeffAt, h]

theorem coeffAt_index {T : List (OpTerm K)} {m : List ℕ} (h : coeffAt T m ≠ 0) : m ∈ T.map fun t => t.index := by
  by_contra h0
  apply h
  have : (T.filter fun t => t.index = m) = [] := by
    rw [List.filter_eq_nil_iff]
    intro t ht h1
    exact h0 (List.mem_map.2 ⟨t, ht, by simpa using h1⟩)
  rw [coeffAt, this]
  simp

/-- The sum over the dictionary is the sum over the terms. -/
theorem dict_sum {T : List (OpTerm K)} {D : List (List ℕ × K)} (hn : (D.map Prod.fst).Nodup)
    (hD : ∀ a c, (a, c) ∈ D ↔ c = coeffAt T a ∧ c ≠ 0) (l : List ℕ → K →+ ℝ) :
    (D.map fun e => l e.1 e.2).sum = (T.map fun t => l t.index t.coeff).sum := by
  have h1 : ∀ (S : Finset (List ℕ)) (T : List (OpTerm K)), (∀ t ∈ T, t.index ∈ S) →
      ∑ m ∈ S, l m (coeffAt T m) = (T.map fun t => l t.index t.coeff).sum := by
    intro S T
    induction T with
    | nil => intro _; simp [coeffAt]
    | cons t T ih =>
      intro hS
      simp only [coeffAt_cons, map_add, Finset.sum_add_distrib, List.map_cons, List.sum_cons]
      rw [ih fun t ht => hS t (by simp [ht])]
      congr 1
      rw [Finset.sum_eq_single t.index]
      · simp
      · intro m _ hm
        simp [Ne.symm hm]
      · intro h
        exact absurd (hS t (by simp)) h
  rw [← h1 (T.map fun t => t.index).toFinset T (fun t ht => by simpa using ⟨t, ht, rfl⟩)]
  have e : (D.map fun e => l e.1 e.2) = (D.map Prod.fst).map fun m => l m (coeffAt T m) := by
    rw [List.map_map]
    apply List.map_congr_left
    intro e he
    rw [((hD e.1 e.2).1 he).1]
    rfl
  rw [e, ← List.sum_toFinset _ hn]
  apply Finset.sum_subset
  · intro m hm
    rw [List.mem_toFinset, List.mem_map] at hm
    obtain ⟨e, he, rfl⟩ := hm
    have h := (hD e.1 e.2).1 he
    rw [List.mem_toFinset]
    exact coeffAt_index (h.1 ▸ h.2)
  · intro m _ hm
    by_cases h0 : coeffAt T m = 0
    · rw [h0, map_zero]
    · exact absurd (List.mem_toFinset.2 (List.mem_map.2 ⟨_, (hD m _).2 ⟨rfl, h0⟩, rfl⟩)) hm

omit [CommRing K] in
theorem opEntry_terms (q : HQuad F) (ev : K → (ℕ → ℝ) → ℝ) (I J : List ℕ) : ∀ T : List (OpTerm K),
    opEntry q ev T I J = (T.map fun t => dformEntry q (ev t.coeff) (orderDirs q.position.dirs t.index) I J).sum
  | [] => by simp [opEntry, opApply, quadrature]
  | t :: T => by
    rw [List.map_cons, List.sum_cons, ← opEntry_terms q ev I J T]
    rw [opEntry, dformEntry, opEntry, ← quadrature_add]
    apply quadrature_congr
    intro i x _
    rw [opApply, List.map_cons, List.sum_cons, opApply]
    ring

theorem dformEntry_zero (q : HQuad F) (ds I J : List ℕ) : dformEntry q (fun _ => 0) ds I J = 0 := by
  simp [dformEntry, quadrature]

section
variable [Algebra ℚ K] [DecidableEq K] [Interp F] [DecidableEq F]

/-- The form of an operator, from the forms for the coefficients. -/
theorem discretize_op_gen {varf : SFn F → Out (HVarf (SFn F))} {varfd : SFn F → List ℕ → Out (HVarf (SFn F))} {fn : K → SFn F} {q : HQuad F}
    (hq : QuadOk q) {sparse : Bool} {s : IndexSet} {degree : ℕ} (hU : UsableTo s q.position.dim degree) {L : List (List ℕ)}
    (hL : IterOk s q.position.dim degree L) {vars : List K} (hvars : vars.length = q.position.dim) {T : List (OpTerm K)}
    (hc : ∀ t ∈ T, t.coeff ≠ 0) (hl : ∀ t ∈ T, t.index.length = q.position.dim) (h5 : ∀ t ∈ T, t.index.sum ≤ 5)
    {ev : K →+ ((ℕ → ℝ) → ℝ)} (hev : ∀ c, (fn c).value = ev c)
    (hvarf : (∀ m, coeffAt T m = 0) → varf (fn 0) = .ok ⟨sparse, L.map fun I => L.map fun J => formEntry q (fn 0).value I J, q.position,
      recDegree s degree, q.factor, s⟩)
    (hvarfd : ∀ m, coeffAt T m ≠ 0 → varfd (fn (coeffAt T m)) (orderDirs q.position.dirs m) = .ok ⟨sparse, L.map fun I => L.map fun J =>
      dformEntry q (fn (coeffAt T m)).value (orderDirs q.position.dirs m) I J, q.position, recDegree s degree, q.factor, s⟩) :
    discretize_op varf varfd fn q q.position.dirs (Props.argsOf vars T) = .ok ⟨sparse, L.map fun I => L.map fun J => opEntry q ev T I J,
      q.position, recDegree s degree, q.factor, s⟩ := by
  have h1 : 1 ≤ q.position.dim := Nat.one_le_iff_ne_zero.2 (PosOk.dim_pos hq.pos hq.dirs_ne)
  obtain ⟨D, eD, hn, hD, -⟩ := Props.C59_split vars T hc (by rw [hvars]; exact hl) h5
  have hlen : q.position.dirs.length = vars.length := by rw [hvars, hq.pos.dirs]
  have hsum : ∀ I J, (D.map fun e => dformEntry q (ev e.2) (orderDirs q.position.dirs e.1) I J).sum = opEntry q ev T I J := by
    intro I J
    rw [opEntry_terms]
    refine dict_sum hn hD fun m => ⟨⟨fun c => dformEntry q (ev c) (orderDirs q.position.dirs m) I J, ?_⟩, ?_⟩
    · rw [map_zero]
      exact dformEntry_zero q _ I J
    · intro a b
      beta_reduce
      show dformEntry q (ev (a + b)) (orderDirs q.position.dirs m) I J = _
      rw [map_add]
      exact dformEntry_add q _ _ _ I J
  have hpart : ∀ e ∈ D, varfd (fn e.2) (dVector q.position.dirs e.1) = .ok ⟨sparse, L.map fun I => L.map fun J =>
      dformEntry q (ev e.2) (orderDirs q.position.dirs e.1) I J, q.position, recDegree s degree, q.factor, s⟩ := by
    intro e he
    obtain ⟨h2, h3⟩ := (hD e.1 e.2).1 he
    rw [dVector_eq, ← hev, h2]
    exact hvarfd e.1 (h2 ▸ h3)
  have hfold : ∀ (l : List (List ℕ × K)), (∀ e ∈ l, e ∈ D) → ∀ (v : List ℕ → List ℕ → ℝ),
      l.foldlM (fun acc e => do
        let part ← varfd (fn e.2) (dVector q.position.dirs e.1)
        varf_add acc part) ⟨sparse, L.map fun m => L.map fun n => v m n, q.position, recDegree s degree, q.factor, s⟩ =
      .ok ⟨sparse, L.map fun I => L.map fun J => v I J + (l.map fun e => dformEntry q (ev e.2) (orderDirs q.position.dirs e.1) I J).sum,
        q.position, recDegree s degree, q.factor, s⟩ := by
    intro l
    induction l with
    | nil => intro _ v; simp [pure]
    | cons a l ih =>
      intro hl v
      rw [List.foldlM_cons, hpart a (hl a (by simp)), Out.ok_bind, varf_add_small (hU _ h1 le_rfl) hL, Out.ok_bind, ih fun e he => hl e (by simp [he])]
      simp only [List.map_cons, List.sum_cons, add_assoc]
  rw [discretize_op, if_neg (by simp), hlen, eD, Out.ok_bind]
  cases D with
  | nil =>
    have h0 : ∀ m, coeffAt T m = 0 := by
      intro m
      by_contra h0
      exact absurd ((hD m _).2 ⟨rfl, h0⟩) (by simp)
    dsimp only
    rw [hvarf h0]
    congr 2
    apply List.map_congr_left
    intro I _
    apply List.map_congr_left
    intro J _
    rw [← hsum, hev, map_zero]
    simp [formEntry, quadrature]
  | cons e D =>
    dsimp only
    rw [hpart e (by simp), Out.ok_bind, varf_add_scalar, if_neg (by simp), mkVarf_small (hU _ h1 le_rfl) hL (by simp), Out.ok_bind]
    have e0 : ((L.map fun I => L.map fun J => dformEntry q (ev e.2) (orderDirs q.position.dirs e.1) I J).map fun r => r.map (· + 0)) =
        L.map fun I => L.map fun J => dformEntry q (ev e.2) (orderDirs q.position.dirs e.1) I J := by simp
    dsimp only
    rw [e0, hfold D (fun e' he' => by simp [he'])]
    congr 2
    apply List.map_congr_left
    intro I _
    apply List.map_congr_left
    intro J _
    rw [← hsum, List.map_cons, List.sum_cons]

end

end Hermipy
