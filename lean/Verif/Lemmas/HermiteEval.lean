import Verif.Model.Transform
import Verif.Lemmas.HermitePoly
import Verif.Lemmas.Loop

/-! # Evaluation of the basis functions -/

namespace Hermipy

open Spec

theorem forFrom_inv {σ : Type} {a b : Nat} {acc : σ} {body : Nat → σ → Out σ} (P : Nat → σ → Prop) (hab : a ≤ b) (h0 : P a acc)
    (hs : ∀ i s, a ≤ i → i < b → P i s → ∃ s', body i s = .ok s' ∧ P (i + 1) s') :
    ∃ s', forFrom a b acc body = .ok s' ∧ P b s' := by
  have := foldlM_inv (f := fun s i => body i s) (fun i s => P (a + i) s) (List.range' a (b - a)) acc h0 (by
    intro i x s hx hP
    obtain ⟨hi, rfl⟩ := List.getElem?_eq_some_iff.1 hx
    simp only [List.length_range'] at hi
    simp only [List.getElem_range', Nat.one_mul]
    exact hs (a + i) s (by omega) (by omega) hP)
  simpa [forFrom, hab] using this

theorem wrPad_of_lt {α : Type} {slack : Nat} {v : List α} {i : Nat} {a : α} (h : i < v.length) :
    wrPad slack v i a = .ok (v.set i a) := by rw [wrPad, if_pos h]

/-- The table of the first `n` values of `g`. -/
def table (n : Nat) (g : Nat → ℝ) : List ℝ := (List.range n).map g

theorem table_length (n : Nat) (g : Nat → ℝ) : (table n g).length = n := by simp [table]

theorem eq_table {v : List ℝ} {n : Nat} {g : Nat → ℝ} (hl : v.length = n) (h : ∀ i < n, v[i]? = some (g i)) : v = table n g := by
  apply List.ext_getElem?
  intro i
  by_cases hi : i < n
  · rw [h i hi, table, List.getElem?_map, List.getElem?_range hi]; rfl
  · rw [List.getElem?_eq_none (by omega), List.getElem?_eq_none (by rw [table_length]; omega)]

theorem rd_table {n : Nat} {g : Nat → ℝ} {i : Nat} (hi : i < n) : rd (table n g) i = .ok (g i) := by
  rw [rd_of_lt (by rw [table_length]; exact hi)]
  simp [table]

theorem hermite_eval_ok {slack degree : Nat} (h : 1 ≤ degree ∨ 1 ≤ slack) (x : ℝ) {values : List ℝ}
    (hl : values.length = degree + 1) :
    hermite_eval slack x degree values = .ok (table (degree + 1) (fun i => herm i x)) := by
  rw [hermite_eval, wrPad_of_lt (by omega)]
  simp only [Out.ok_bind]
  rcases Nat.eq_zero_or_pos degree with rfl | hd
  · have hsl : 1 ≤ slack := by omega
    rw [wrPad, if_neg (by simp [hl]), if_pos (by simp [hl]; omega)]
    simp only [Out.ok_bind, forFrom, Nat.zero_sub, List.range'_zero, List.foldlM_nil, Out.pure_eq]
    congr 1
    apply eq_table (by simpa using hl)
    intro i hi
    obtain rfl : i = 0 := by omega
    rw [List.getElem?_set_self (by omega), herm_zero]
  · rw [wrPad_of_lt (by simp; omega)]
    simp only [Out.ok_bind]
    obtain ⟨v, e, hv, hP⟩ := forFrom_inv (a := 1) (b := degree) (acc := (values.set 0 1).set 1 x)
      (body := fun i values => do
        let u ← rd values i
        let v ← rd values (i - 1)
        wrPad slack values (i + 1) (REC_A i * x * u - REC_B i * v))
      (fun i v => v.length = degree + 1 ∧ ∀ t ≤ i, v[t]? = some (herm t x)) hd
      ⟨by simpa using hl, by
        intro t ht
        have : t = 0 ∨ t = 1 := by omega
        rcases this with rfl | rfl
        · rw [List.getElem?_set_ne (by omega), List.getElem?_set_self (by omega), herm_zero]
        · rw [List.getElem?_set_self (by simp; omega), herm_one]⟩
      (by
        rintro i v hi1 hi2 ⟨hl, hP⟩
        obtain ⟨n, rfl⟩ : ∃ n, i = n + 1 := ⟨i - 1, by omega⟩
        have r1 : rd v (n + 1) = .ok (herm (n + 1) x) := by
          have := hP (n + 1) le_rfl
          rw [rd, this]
        have r2 : rd v (n + 1 - 1) = .ok (herm n x) := by
          have := hP n (by omega)
          rw [rd, Nat.add_sub_cancel, this]
        rw [r1, r2]
        simp only [Out.ok_bind]
        rw [wrPad_of_lt (by omega)]
        refine ⟨_, rfl, by simpa using hl, fun t ht => ?_⟩
        by_cases h : t = n + 1 + 1
        · subst h
          rw [List.getElem?_set_self (by omega), herm_rec, REC_A, REC_B]
          push_cast
          rw [show (n : ℝ) + 1 + 1 = n + 2 by ring]
        · rw [List.getElem?_set_ne (by omega)]
          exact hP t (by omega))
    rw [e]
    congr 1
    exact eq_table hv fun i hi => hP i (by omega)

/-- With an exactly allocated buffer of one entry, the evaluation writes out of bounds. -/
theorem hermite_eval_zero (x : ℝ) {values : List ℝ} (hl : values.length = 1) : hermite_eval 0 x 0 values = .ub := by
  rw [hermite_eval, wrPad_of_lt (by omega)]
  simp only [Out.ok_bind]
  rw [wrPad, if_neg (by simp [hl]), if_neg (by simp [hl])]
  rfl

theorem trig_zero (x : ℝ) : trig 0 x = 1 / √(2 * Real.pi) := by simp [trig]

theorem trig_cos {k : Nat} (hk : 1 ≤ k) (x : ℝ) : trig (2 * k) x = Real.cos (k * x) / √Real.pi := by
  rw [trig, if_neg (by omega), if_pos (by omega)]
  simp

theorem trig_sin {k : Nat} (hk : 1 ≤ k) (x : ℝ) : trig (2 * k - 1) x = Real.sin (k * x) / √Real.pi := by
  rw [trig, if_neg (by omega), if_neg (by omega), show (2 * k - 1 + 1) / 2 = k by omega]

/-- Conditions under which the table of basis functions of one direction is filled correctly. -/
structure RowOk (slack degree fourier : Nat) : Prop where
  flag : fourier ≤ 1
  hermite : fourier = 0 → 1 ≤ degree ∨ 1 ≤ slack
  even : fourier = 1 → degree % 2 = 0

theorem basisRow_ok {slack degree fourier : Nat} (h : RowOk slack degree fourier) (x : ℝ) :
    basisRow slack degree fourier x = .ok (table (degree + 1) (fun i => phi fourier i x)) := by
  have : fourier = 0 ∨ fourier = 1 := by have := h.flag; omega
  rcases this with rfl | rfl
  · rw [basisRow]
    simp only [if_true]
    rw [hermite_eval_ok (h.hermite rfl) x (by simp)]
    simp [phi]
  · have he := h.even rfl
    rw [basisRow]
    simp only [one_ne_zero, if_false, if_true]
    rw [if_neg (by omega), wr_of_lt (by simp)]
    simp only [Out.ok_bind]
    obtain ⟨v, e, hv, hP⟩ := forFrom_inv (a := 1) (b := degree / 2 + 1)
      (acc := (List.replicate (degree + 1) (0 : ℝ)).set 0 (1 / √(2 * Real.pi)))
      (body := fun k row => do
        let row ← wr row (COS k) (Real.cos (k * x) / √Real.pi)
        wr row (SIN k) (Real.sin (k * x) / √Real.pi))
      (fun k v => v.length = degree + 1 ∧ ∀ t < 2 * k - 1, v[t]? = some (trig t x)) (by omega)
      ⟨by simp, by
        intro t ht
        obtain rfl : t = 0 := by omega
        rw [List.getElem?_set_self (by simp), trig_zero]⟩
      (by
        rintro k v h1 h2 ⟨hl, hP⟩
        rw [wr_of_lt (by rw [COS]; omega)]
        simp only [Out.ok_bind]
        rw [wr_of_lt (by rw [SIN]; simp; omega)]
        refine ⟨_, rfl, by simpa using hl, fun t ht => ?_⟩
        rw [COS, SIN]
        by_cases hs : 2 * k - 1 = t
        · rw [hs, List.getElem?_set_self (by simp; omega), ← hs, trig_sin h1]
        · rw [List.getElem?_set_ne hs]
          by_cases hc : 2 * k = t
          · rw [hc, List.getElem?_set_self (by omega), ← hc, trig_cos h1]
          · rw [List.getElem?_set_ne hc]
            exact hP t (by omega))
    rw [e]
    congr 1
    refine eq_table hv fun i hi => ?_
    rw [hP i (by omega)]
    simp [phi]

theorem basisMat_ok {slack degree fourier : Nat} (h : RowOk slack degree fourier) : ∀ xs : List ℝ,
    basisMat slack degree fourier xs = .ok (xs.map fun x => table (degree + 1) (fun i => phi fourier i x))
  | [] => rfl
  | x :: xs => by
    rw [basisMat, basisRow_ok h, basisMat_ok h xs]
    rfl

theorem basisCube_ok {slack degree : Nat} : ∀ {nodes : List (List ℝ)} {fourier : List Nat}, fourier.length = nodes.length →
    (∀ f ∈ fourier, RowOk slack degree f) →
    basisCube slack degree nodes fourier = .ok (List.zipWith
      (fun n f => n.map fun x => table (degree + 1) (fun i => phi f i x)) nodes fourier)
  | [], [], _, _ => by rw [basisCube]; rfl
  | [], _ :: _, h, _ => by simp at h
  | _ :: _, [], h, _ => by simp at h
  | n :: ns, f :: fs, hl, h => by
    have : basisCube slack degree (n :: ns) (f :: fs) = (do
        let b ← basisMat slack degree f n
        let r ← basisCube slack degree ns fs
        .ok (b :: r)) := by
      cases n <;> rw [basisCube]
    rw [this, basisMat_ok (h f (by simp)), basisCube_ok (by simpa using hl) (fun g hg => h g (by simp [hg]))]
    rfl

end Hermipy
