import Verif.Lemmas.HermiteAbs
import Verif.Lemmas.TransformEdge
import Mathlib.Analysis.SpecialFunctions.Trigonometric.Bounds

/-! # The loops over floating-point numbers -/

namespace Hermipy

open Spec

variable {α : Type} [Floats α] {val : α → ℝ} {u : ℝ}

/-! ## Coefficients -/

theorem Spec.Accurate.sqrt_rel (A : Accurate α val u) {k : ℕ} {x : α} {y : ℝ} (h : Rel u (2 * k) (val x) y) :
    Rel u (k + 2) (val (Floats.sqrt x)) √y :=
  (h.sqrt A.nonneg).round A.nonneg A.small (A.sqrt x h.pos'.le)

theorem Spec.Accurate.sqrtNat_rel (A : Accurate α val u) {n : ℕ} (hn : n < 2 ^ 32) (h : 0 < n) :
    Rel u 2 (val (Floats.sqrt (Floats.ofNat n : α))) √(n : ℝ) := by
  refine A.sqrt_rel (k := 0) ?_
  rw [A.ofNat n hn]
  exact Rel.refl (by exact_mod_cast h)

theorem Spec.Accurate.pi_rel (A : Accurate α val u) : Rel u 2 (val (Floats.pi : α)) Real.pi :=
  (Rel.refl Real.pi_pos).round A.nonneg A.small A.pi

theorem Spec.Accurate.twopi_rel (A : Accurate α val u) : Rel u 4 (val (Floats.ofNat 2 * Floats.pi : α)) (2 * Real.pi) := by
  have h := (Rel.refl (u := u) (show (0 : ℝ) < 2 by norm_num)).mul A.nonneg A.pi_rel
  refine h.round A.nonneg A.small ?_
  have := A.mul (Floats.ofNat 2) Floats.pi
  rw [A.ofNat 2 (by norm_num), Nat.cast_ofNat] at this
  exact this.trans_eq (by rw [abs_of_pos h.pos'])

theorem Spec.Accurate.rootpi_rel (A : Accurate α val u) : Rel u 3 (val (Floats.sqrt (Floats.pi : α))) √Real.pi :=
  A.sqrt_rel (k := 1) A.pi_rel

theorem Spec.Accurate.roottwopi_rel (A : Accurate α val u) :
    Rel u 4 (val (Floats.sqrt (Floats.ofNat 2 * Floats.pi : α))) √(2 * Real.pi) :=
  A.sqrt_rel (k := 2) A.twopi_rel

theorem Spec.Accurate.div_rel (A : Accurate α val u) {k k' : ℕ} {x y : α} {a b : ℝ} (h : Rel u k (val x) a) (h' : Rel u k' (val y) b) :
    Rel u (k + k' + 2) (val (x / y)) (a / b) := by
  have h2 := h.mul A.nonneg (h'.inv A.nonneg)
  rw [← div_eq_mul_inv, ← div_eq_mul_inv] at h2
  refine h2.round A.nonneg A.small ?_
  have := A.div x y h'.pos'.ne'
  rwa [abs_of_pos h2.pos'] at this

theorem Spec.Accurate.one_rel (A : Accurate α val u) : Rel u 0 (val (1 : α)) 1 := by
  rw [A.one]; exact Rel.refl one_pos

theorem Spec.Accurate.recA_rel (A : Accurate α val u) {i : ℕ} (hi : i + 1 < 2 ^ 32) :
    Rel u 4 (val (recA i : α)) (1 / √((i : ℝ) + 1)) := by
  have := A.div_rel A.one_rel (A.sqrtNat_rel hi (by omega))
  push_cast at this
  exact this

theorem Spec.Accurate.recB_rel (A : Accurate α val u) {i : ℕ} (hi : i + 1 < 2 ^ 32) (h0 : 0 < i) :
    Rel u 6 (val (recB i : α)) (√(i : ℝ) / √((i : ℝ) + 1)) := by
  have := A.div_rel (A.sqrtNat_rel (show i < 2 ^ 32 by omega) h0) (A.sqrtNat_rel hi (by omega))
  push_cast at this
  exact this

/-! ## Hermite polynomials -/

/-- The entry `t` of the row of Hermite polynomials is right. -/
def HermOk (val : α → ℝ) (u : ℝ) (x : α) (v : List α) (t : ℕ) : Prop :=
  ∃ c, v[t]? = some c ∧ Approx u (8 * t) (val c) (herm t (val x)) (hermAbs t (val x))

theorem hermite_evalF_ok (A : Accurate α val u) {slack degree : ℕ} (h : 1 ≤ degree ∨ 1 ≤ slack) (hdeg : degree < 2 ^ 32) (x : α)
    {values : List α} (hl : values.length = degree + 1) :
    ∃ row, hermite_evalF slack x degree values = .ok row ∧ row.length = degree + 1 ∧ ∀ t ≤ degree, HermOk val u x row t := by
  have a0 : Approx u (8 * 0) (val (1 : α)) (herm 0 (val x)) (hermAbs 0 (val x)) := by
    rw [A.one, herm_zero, hermAbs_zero]
    simpa using Approx.exact A.nonneg 0 (1 : ℝ)
  have a1 : Approx u (8 * 1) (val x) (herm 1 (val x)) (hermAbs 1 (val x)) := by
    rw [herm_one, hermAbs_one]
    exact Approx.exact A.nonneg _ _
  rw [hermite_evalF, wrPad_of_lt (by omega)]
  simp only [Out.ok_bind]
  rcases Nat.eq_zero_or_pos degree with rfl | hd
  · have hsl : 1 ≤ slack := by omega
    rw [wrPad, if_neg (by simp [hl]), if_pos (by simp [hl]; omega)]
    simp only [Out.ok_bind, forFrom, Nat.zero_sub, List.range'_zero, List.foldlM_nil, Out.pure_eq]
    refine ⟨_, rfl, by simpa using hl, fun t ht => ?_⟩
    obtain rfl : t = 0 := by omega
    exact ⟨1, List.getElem?_set_self (by omega), a0⟩
  · rw [wrPad_of_lt (by simp; omega)]
    simp only [Out.ok_bind]
    obtain ⟨v, e, hv, hP⟩ := forFrom_inv (a := 1) (b := degree) (acc := (values.set 0 1).set 1 x)
      (body := fun i values => do
        let u ← rd values i
        let v ← rd values (i - 1)
        wrPad slack values (i + 1) (recA i * x * u - recB i * v))
      (fun i v => v.length = degree + 1 ∧ ∀ t ≤ i, HermOk val u x v t) hd
      ⟨by simpa using hl, by
        intro t ht
        have : t = 0 ∨ t = 1 := by omega
        rcases this with rfl | rfl
        · exact ⟨1, by rw [List.getElem?_set_ne (by omega), List.getElem?_set_self (by omega)], a0⟩
        · exact ⟨x, List.getElem?_set_self (by simp; omega), a1⟩⟩
      (by
        rintro i v hi1 hi2 ⟨hl, hP⟩
        obtain ⟨n, rfl⟩ : ∃ n, i = n + 1 := ⟨i - 1, by omega⟩
        obtain ⟨c, hc, ac⟩ := hP (n + 1) le_rfl
        obtain ⟨d, hd, ad⟩ := hP n (by omega)
        have r1 : rd v (n + 1) = .ok c := by rw [rd, hc]
        have r2 : rd v (n + 1 - 1) = .ok d := by rw [rd, Nat.add_sub_cancel, hd]
        rw [r1, r2]
        simp only [Out.ok_bind]
        rw [wrPad_of_lt (by omega)]
        refine ⟨_, rfl, by simpa using hl, fun t ht => ?_⟩
        by_cases h : t = n + 1 + 1
        · subst h
          refine ⟨_, List.getElem?_set_self (by omega), ?_⟩
          have rA := (A.recA_rel (i := n + 1) (by omega)).approx A.nonneg
          have rB := (A.recB_rel (i := n + 1) (by omega) (by omega)).approx A.nonneg
          push_cast at rA rB
          rw [show (n : ℝ) + 1 + 1 = n + 2 by ring] at rA rB
          have t1 := (rA.mul A.nonneg (Approx.exact A.nonneg 0 (val x)) (A.mul _ _)).mul A.nonneg ac (A.mul _ _)
          have t2 := rB.mul A.nonneg ad (A.mul _ _)
          have := (t1.mono A.nonneg (k' := 8 * n + 15) (by omega)).sub A.nonneg (t2.mono A.nonneg (by omega)) (A.sub _ _)
          rw [show n + 1 + 1 = n + 2 from rfl, herm_rec, hermAbs_rec]
          exact this.mono A.nonneg (by omega)
        · obtain ⟨b, hb, ab⟩ := hP t (by omega)
          exact ⟨b, by rw [List.getElem?_set_ne (by omega)]; exact hb, ab⟩)
    exact ⟨v, e, hv, hP⟩

/-! ## Rows of basis functions -/

/-- The entry `t` of a row is right. -/
def EntryOk (val : α → ℝ) (u : ℝ) (fourier : ℕ) (x : α) (v : List α) (t : ℕ) : Prop :=
  Approx u (ops fourier t) (val (v.getD t 0)) (phi fourier t (val x)) (phiAbs fourier t (val x))

theorem trigAbs_zero (x : ℝ) : trigAbs 0 x = 1 / √(2 * Real.pi) := by simp [trigAbs]

theorem approx_lib {u δ a c s x : ℝ} {k : ℕ} (ha : |a - k * x| ≤ u * |k * x|) (hs : |s| ≤ 1) (hδ : |δ - s| ≤ |a - k * x|)
    (hc : |c - δ| ≤ u) : Approx u 1 c s (1 + k * |x|) := by
  have hk : |(k : ℝ) * x| = k * |x| := by rw [abs_mul, abs_of_nonneg (by positivity : (0 : ℝ) ≤ k)]
  rw [hk] at ha
  refine ⟨hs.trans (by nlinarith [abs_nonneg x, show (0 : ℝ) ≤ k by positivity, mul_nonneg (show (0 : ℝ) ≤ k by positivity) (abs_nonneg x)]), ?_⟩
  calc |c - s| = |(c - δ) + (δ - s)| := by ring_nf
    _ ≤ |c - δ| + |δ - s| := abs_add_le _ _
    _ ≤ u + u * (k * |x|) := add_le_add hc (hδ.trans ha)
    _ = err u 1 * (1 + k * |x|) := by simp only [err, pow_one]; ring

theorem Spec.Accurate.cos_approx (A : Accurate α val u) {k : ℕ} (hk : k < 2 ^ 32) (x : α) :
    Approx u 5 (val (Floats.cos (Floats.ofNat k * x) / Floats.sqrt Floats.pi : α)) (Real.cos (k * val x) / √Real.pi)
      ((1 + k * |val x|) / √Real.pi) := by
  have hm := A.mul (Floats.ofNat k) x
  rw [A.ofNat k hk] at hm
  exact (approx_lib hm (Real.abs_cos_le_one _) (Real.abs_cos_sub_cos_le _ _) (A.cos _)).div A.nonneg A.rootpi_rel (A.div _ _ A.rootpi_rel.pos'.ne')

theorem Spec.Accurate.sin_approx (A : Accurate α val u) {k : ℕ} (hk : k < 2 ^ 32) (x : α) :
    Approx u 5 (val (Floats.sin (Floats.ofNat k * x) / Floats.sqrt Floats.pi : α)) (Real.sin (k * val x) / √Real.pi)
      ((1 + k * |val x|) / √Real.pi) := by
  have hm := A.mul (Floats.ofNat k) x
  rw [A.ofNat k hk] at hm
  exact (approx_lib hm (Real.abs_sin_le_one _) (Real.abs_sin_sub_sin_le _ _) (A.sin _)).div A.nonneg A.rootpi_rel (A.div _ _ A.rootpi_rel.pos'.ne')

theorem basisRowF_ok (A : Accurate α val u) {slack degree fourier : ℕ} (h : RowOk slack degree fourier) (hdeg : degree < 2 ^ 32) (x : α) :
    ∃ row, basisRowF slack degree fourier x = .ok row ∧ row.length = degree + 1 ∧ ∀ t ≤ degree, EntryOk val u fourier x row t := by
  have : fourier = 0 ∨ fourier = 1 := by have := h.flag; omega
  rcases this with rfl | rfl
  · rw [basisRowF]
    simp only [if_true]
    obtain ⟨row, e, hl, hP⟩ := hermite_evalF_ok A (h.hermite rfl) hdeg x (values := List.replicate (degree + 1) 0) (by simp)
    refine ⟨row, e, hl, fun t ht => ?_⟩
    obtain ⟨c, hc, ac⟩ := hP t ht
    rw [EntryOk, List.getD_eq_getElem?_getD, hc]
    simpa [ops, phi, phiAbs] using ac
  · have he := h.even rfl
    rw [basisRowF]
    simp only [one_ne_zero, if_false, if_true]
    rw [if_neg (by omega), wr_of_lt (by simp)]
    simp only [Out.ok_bind]
    obtain ⟨v, e, hv, hP⟩ := forFrom_inv (a := 1) (b := degree / 2 + 1)
      (acc := (List.replicate (degree + 1) (0 : α)).set 0 (1 / Floats.sqrt (Floats.ofNat 2 * Floats.pi)))
      (body := fun k row => do
        let row ← wr row (COS k) (Floats.cos (Floats.ofNat k * x) / Floats.sqrt Floats.pi)
        wr row (SIN k) (Floats.sin (Floats.ofNat k * x) / Floats.sqrt Floats.pi))
      (fun k v => v.length = degree + 1 ∧ ∀ t < 2 * k - 1, EntryOk val u 1 x v t) (by omega)
      ⟨by simp, by
        intro t ht
        obtain rfl : t = 0 := by omega
        rw [EntryOk, List.getD_eq_getElem?_getD, List.getElem?_set_self (by simp), phi, phiAbs, if_pos rfl, if_pos rfl, trig_zero,
          trigAbs_zero]
        have := (A.one_rel.approx A.nonneg).div A.nonneg A.roottwopi_rel (A.div _ _ A.roottwopi_rel.pos'.ne')
        simpa [ops] using this⟩
      (by
        rintro k v h1 h2 ⟨hl, hP⟩
        rw [wr_of_lt (by rw [COS]; omega)]
        simp only [Out.ok_bind]
        rw [wr_of_lt (by rw [SIN]; simp; omega)]
        refine ⟨_, rfl, by simpa using hl, fun t ht => ?_⟩
        rw [COS, SIN, EntryOk, List.getD_eq_getElem?_getD]
        by_cases hs : 2 * k - 1 = t
        · rw [hs, List.getElem?_set_self (by simp; omega), ← hs, phi, phiAbs, if_pos rfl, if_pos rfl, trig_sin h1, trigAbs,
            if_neg (by omega), show (2 * k - 1 + 1) / 2 = k by omega]
          exact A.sin_approx (by omega) x
        · rw [List.getElem?_set_ne hs]
          by_cases hc : 2 * k = t
          · rw [hc, List.getElem?_set_self (by omega), ← hc, phi, phiAbs, if_pos rfl, if_pos rfl, trig_cos h1, trigAbs,
              if_neg (by omega), show (2 * k + 1) / 2 = k by omega]
            exact A.cos_approx (by omega) x
          · rw [List.getElem?_set_ne hc]
            have := hP t (by omega)
            rwa [EntryOk, List.getD_eq_getElem?_getD] at this)
    exact ⟨v, e, hv, fun t ht => hP t (by omega)⟩

theorem basisMatF_ok (A : Accurate α val u) {slack degree fourier : ℕ} (h : RowOk slack degree fourier) (hdeg : degree < 2 ^ 32) :
    ∀ xs : List α, ∃ rows, basisMatF slack degree fourier xs = .ok rows ∧ rows.length = xs.length ∧ ∀ q < xs.length,
      (rows.getD q []).length = degree + 1 ∧ ∀ t ≤ degree, EntryOk val u fourier (xs.getD q 0) (rows.getD q []) t
  | [] => ⟨[], rfl, rfl, by simp⟩
  | x :: xs => by
    obtain ⟨row, e, hl, hP⟩ := basisRowF_ok A h hdeg x
    obtain ⟨rows, e', hl', hP'⟩ := basisMatF_ok A h hdeg xs
    refine ⟨row :: rows, by rw [basisMatF, e, e']; rfl, by simpa using hl', fun q hq => ?_⟩
    cases q with
    | zero => exact ⟨by simpa using hl, fun t ht => by simpa using hP t ht⟩
    | succ q => simpa using hP' q (by simpa using hq)

/-- The table of all directions is right. -/
def CubeOk (val : α → ℝ) (u : ℝ) (degree : ℕ) (nodes : List (List α)) (fourier : List ℕ) (cube : List (List (List α))) : Prop :=
  cube.length = nodes.length ∧ ∀ k < nodes.length, (cube.getD k []).length = (nodes.getD k []).length ∧
    ∀ q < (nodes.getD k []).length, ((cube.getD k []).getD q []).length = degree + 1 ∧ ∀ t ≤ degree,
      EntryOk val u (fourier.getD k 0) ((nodes.getD k []).getD q 0) ((cube.getD k []).getD q []) t

theorem basisCubeF_ok (A : Accurate α val u) {slack degree : ℕ} (hdeg : degree < 2 ^ 32) : ∀ {nodes : List (List α)} {fourier : List ℕ},
    fourier.length = nodes.length → (∀ f ∈ fourier, RowOk slack degree f) →
    ∃ cube, basisCubeF slack degree nodes fourier = .ok cube ∧ CubeOk val u degree nodes fourier cube
  | [], [], _, _ => ⟨[], by rw [basisCubeF], rfl, by simp⟩
  | [], _ :: _, h, _ => by simp at h
  | _ :: _, [], h, _ => by simp at h
  | n :: ns, f :: fs, hl, h => by
    have : basisCubeF slack degree (n :: ns) (f :: fs) = (do
        let b ← basisMatF slack degree f n
        let r ← basisCubeF slack degree ns fs
        .ok (b :: r)) := by
      cases n <;> rw [basisCubeF]
    obtain ⟨b, e, hb, hB⟩ := basisMatF_ok A (h f (by simp)) hdeg n
    obtain ⟨r, e', hr, hR⟩ := basisCubeF_ok A (slack := slack) hdeg (nodes := ns) (fourier := fs) (by simpa using hl)
      (fun g hg => h g (by simp [hg]))
    refine ⟨b :: r, by rw [this, e, e']; rfl, by simpa using hr, fun k hk => ?_⟩
    cases k with
    | zero => exact ⟨by simpa using hb, by simpa using hB⟩
    | succ k => simpa using hR k (by simpa using hk)

/-! ## Products -/

omit [Floats α] in
theorem reals_length (ls : List (List α)) : (reals val ls).length = ls.length := by simp [reals]

omit [Floats α] in
theorem reals_lengths (ls : List (List α)) : (reals val ls).map List.length = ls.map List.length := by simp [reals, Function.comp_def]

theorem getD_map_val (A : Accurate α val u) (l : List α) (q : ℕ) : (l.map val).getD q 0 = val (l.getD q 0) := by
  rw [List.getD_eq_getElem?_getD, List.getD_eq_getElem?_getD, List.getElem?_map, ← A.zero, Option.getD_map]

theorem reals_getD (A : Accurate α val u) (ls : List (List α)) (k q : ℕ) :
    ((reals val ls).getD k []).getD q 0 = val ((ls.getD k []).getD q 0) := by
  rw [← getD_map_val A]
  congr 1
  rw [reals, List.getD_eq_getElem?_getD, List.getD_eq_getElem?_getD, List.getElem?_map]
  cases ls[k]? <;> rfl

theorem valAtF_ok (A : Accurate α val u) {nodes : List (List α)} {p m : IVec} {fourier : List ℕ} {degree : ℕ}
    {cube : List (List (List α))} (hC : CubeOk val u degree nodes fourier cube) (hp : List.Forall₂ (· < ·) p (nodes.map List.length))
    (hml : m.length = nodes.length) (hm : ∀ x ∈ m, x ≤ degree) :
    ∃ v, valAtF nodes.length cube p m = .ok v ∧
      Approx u (basisOps nodes.length fourier m) (val v) (basis nodes.length fourier m (pick 0 (reals val nodes) p))
        (basisAbs nodes.length fourier m (pick 0 (reals val nodes) p)) := by
  have hpl : p.length = nodes.length := by simpa using hp.length_eq
  obtain ⟨v, e, hv⟩ := forRange_inv (n := nodes.length) (acc := (1 : α))
    (body := fun k val => do
      let b ← rd cube k
      let pk ← rd p k
      let r ← rd b pk
      let mk ← rd m k
      let x ← rd r mk
      .ok (val * x))
    (fun n v => Approx u (basisOps n fourier m) (val v) (basis n fourier m (pick 0 (reals val nodes) p))
      (basisAbs n fourier m (pick 0 (reals val nodes) p)))
    (by
      rw [A.one]
      simpa [basisOps, basis, basisAbs] using Approx.exact A.nonneg 0 (1 : ℝ))
    (by
      intro k v hk hv
      have h1 := mem_boxList_getD hp (k := k) (by simpa using hk)
      have h2 : (nodes.map List.length).getD k 0 = (nodes.getD k []).length := by simp [hk]
      have h3 : p.getD k 0 < (nodes.getD k []).length := by omega
      obtain ⟨hb, hq⟩ := hC.2 k hk
      obtain ⟨hr, ht⟩ := hq _ h3
      have h4 : m.getD k 0 ≤ degree := by
        have hkm : k < m.length := by omega
        simpa [hkm] using hm _ (List.getElem_mem hkm)
      rw [rd_getD [] (by rw [hC.1]; exact hk), rd_getD 0 (by omega)]
      simp only [Out.ok_bind]
      rw [rd_getD [] (by omega), rd_getD 0 (by omega)]
      simp only [Out.ok_bind]
      rw [rd_getD 0 (by omega)]
      refine ⟨_, rfl, ?_⟩
      have := hv.mul A.nonneg (ht _ h4) (A.mul _ _)
      rw [basisOps, basis, basisAbs, Finset.sum_range_succ, Finset.prod_range_succ, Finset.prod_range_succ,
        pick_getD 0 (by rw [hpl, reals_length]) (by rw [reals_length]; exact hk), reals_getD A]
      exact this)
  exact ⟨v, e, hv⟩

theorem weightAtF_ok (A : Accurate α val u) {weights : List (List α)} {n_points p : IVec} (hw : weights.map List.length = n_points)
    (hp : List.Forall₂ (· < ·) p n_points) :
    ∃ w, weightAtF weights.length weights p = .ok w ∧
      Approx u weights.length (val w) (pick 0 (reals val weights) p).prod |(pick 0 (reals val weights) p).prod| := by
  have hlen : n_points.length = weights.length := by rw [← hw]; simp
  have hpl : p.length = weights.length := by rw [hp.length_eq, hlen]
  obtain ⟨w, e, h⟩ := forRange_inv (n := weights.length) (acc := (1 : α))
    (body := fun j w => do
      let ws ← rd weights j
      let pj ← rd p j
      let x ← rd ws pj
      .ok (w * x))
    (fun n w => Approx u n (val w) (∏ k ∈ Finset.range n, (pick 0 (reals val weights) p).getD k 0)
      |∏ k ∈ Finset.range n, (pick 0 (reals val weights) p).getD k 0|)
    (by
      rw [A.one]
      simpa using Approx.exact A.nonneg 0 (1 : ℝ))
    (by
      intro k v hk hv
      have h1 := mem_boxList_getD hp (k := k) (by omega)
      have h2 : (weights.getD k []).length = n_points.getD k 0 := by
        rw [← hw]; simp [hk]
      rw [rd_getD [] hk, rd_getD 0 (by omega)]
      simp only [Out.ok_bind]
      rw [rd_getD 0 (by omega)]
      refine ⟨_, rfl, ?_⟩
      have := hv.mul A.nonneg (Approx.exact A.nonneg 0 (val ((weights.getD k []).getD (p.getD k 0) 0))) (A.mul _ _)
      rw [Finset.prod_range_succ, pick_getD 0 (by rw [hpl, reals_length]) (by rw [reals_length]; exact hk), reals_getD A, abs_mul]
      exact this)
  refine ⟨w, e, ?_⟩
  have hl : (pick 0 (reals val weights) p).length = weights.length := by simp [pick, hpl, reals]
  rw [list_prod_getD, hl]
  exact h

/-! ## Sums -/

/-- The sum of the absolute values of the terms of the first `i` points. -/
noncomputable def absSum (nodes weights : List (List ℝ)) (f : List ℝ) (fourier m : List ℕ) (n : ℕ) : ℝ :=
  ∑ i ∈ Finset.range n, |(gridWeights weights).getD i 0| * (|f.getD i 0| * basisAbs nodes.length fourier m ((gridPoints nodes).getD i []))

theorem transformF_forward_ok (A : Accurate α val u) {slack : ℕ} {s : IndexSet} {degree : ℕ} (hdeg : degree < 2 ^ 32)
    {nodes weights : List (List α)} {fourier : List ℕ}
    (hz : Sized s nodes.length degree) (hg : Spec.Grid (reals val nodes) fourier) (hd : DegreeOk slack s degree fourier)
    (hw : weights.map List.length = nodes.map List.length) {L : List IVec} (hL : IterOk s nodes.length degree L)
    {f : List α} (hf : f.length = (gridPoints (reals val nodes)).length) :
    ∃ r, transformF slack s degree f nodes weights fourier true = .ok r ∧ r.length = L.length ∧
      ∀ (j : ℕ) (m : IVec), L[j]? = some m →
        Approx u (nodes.length + 2 + basisOps nodes.length fourier m + (gridPoints (reals val nodes)).length) (val (r.getD j 0))
          (quadrature (reals val nodes) (reals val weights) fun i p => (f.map val).getD i 0 * basis nodes.length fourier m p)
          (absSum (reals val nodes) (reals val weights) (f.map val) fourier m (gridPoints (reals val nodes)).length) := by
  obtain ⟨hne, hb, hN, htot⟩ := hg.bounds
  rw [reals_lengths] at hne hb hN htot
  have hwR : (reals val weights).map List.length = (reals val nodes).map List.length := by rw [reals_lengths, reals_lengths, hw]
  have hsize := hL.size hz.dim_pos (by rw [hL.length]; exact hz.card_lt)
  have hwl : weights.length = nodes.length := by simpa using congrArg List.length hw
  obtain ⟨cube, ecube, hC⟩ := basisCubeF_ok A (slack := slack) hdeg (nodes := nodes) (fourier := fourier)
    (by rw [hg.flags.1, reals_length]) (hd.row hg.flags.2)
  set ps : IVec → ℕ → ℝ := fun m i => partialSum (reals val nodes) (reals val weights)
    (fun i p => (f.map val).getD i 0 * basis nodes.length fourier m p) i with hps
  set as : IVec → ℕ → ℝ := fun m i => absSum (reals val nodes) (reals val weights) (f.map val) fourier m i with has
  obtain ⟨g, ⟨it, out⟩, e, -, hlen, hval⟩ := gridLoop_inv hne hb
    (acc := (freshIter nodes.length L, List.replicate L.length (0 : α)))
    (body := fun i p st => do
      let weight ← weightAtF nodes.length weights p
      countLoop L.length st.1.reset st.2 fun j m output => do
        let val ← valAtF nodes.length cube p m
        let old ← rd output j
        let x ← rd f i
        wr output j (old + x * weight * val))
    (fun i st => st.1.reset = freshIter nodes.length L ∧ st.2.length = L.length ∧ ∀ (j : ℕ) (m : IVec), L[j]? = some m →
      Approx u (nodes.length + 2 + basisOps nodes.length fourier m + i) (val (st.2.getD j 0)) (ps m i) (as m i))
    ⟨freshIter_reset _ _, by simp, fun j m hm => by
      have hj := (List.getElem?_eq_some_iff.1 hm).1
      have : (List.replicate L.length (0 : α)).getD j 0 = 0 := by simp [hj]
      rw [this, A.zero]
      simp only [hps, has, partialSum, absSum, Finset.range_zero, Finset.sum_empty]
      have := Approx.exact A.nonneg (nodes.length + 2 + basisOps nodes.length fourier m + 0) (0 : ℝ)
      rwa [abs_zero] at this⟩
    (by
      rintro i p ⟨it, out⟩ hp ⟨hre, hlen, hval⟩
      simp only at hre hlen hval
      have hpm := mem_boxList.1 (List.mem_of_getElem? hp)
      have hi : i < (gridPoints (reals val nodes)).length := by rw [← hN]; exact (List.getElem?_eq_some_iff.1 hp).1
      have hpR : (boxList ((reals val nodes).map List.length))[i]? = some p := by rw [reals_lengths]; exact hp
      have hpt := grid_getD hpR
      have hwt := gridWeights_getD hwR hpR
      obtain ⟨w, e1, hW⟩ := weightAtF_ok A hw hpm
      rw [hwl, ← hwt] at hW
      rw [hwl] at e1
      rw [e1, hre]
      simp only [Out.ok_bind]
      obtain ⟨it', out', e2, hre', hlen', hval1, hval2⟩ := hL.countLoop (acc := out)
        (body := fun j m output => do
          let val ← valAtF nodes.length cube p m
          let old ← rd output j
          let x ← rd f i
          wr output j (old + x * w * val))
        (fun j o => o.length = L.length ∧
          (∀ (t : ℕ) (m : IVec), L[t]? = some m → t < j →
            Approx u (nodes.length + 2 + basisOps nodes.length fourier m + (i + 1)) (val (o.getD t 0)) (ps m (i + 1)) (as m (i + 1))) ∧
          ∀ t, j ≤ t → o[t]? = out[t]?)
        ⟨hlen, fun t m _ h => absurd h (Nat.not_lt_zero _), fun _ _ => rfl⟩
        (by
          rintro j m o hm ⟨ho, ho1, ho2⟩
          have hj := (List.getElem?_eq_some_iff.1 hm).1
          have hin := (hL.mem m).1 (List.mem_of_getElem? hm)
          obtain ⟨v, ev, hV⟩ := valAtF_ok A hC hpm (inSet_length hin) (inSet_le hd.cross hin)
          rw [ev]
          have r1 : rd o j = .ok (out.getD j 0) := by
            rw [rd_getD 0 (by omega), List.getD_eq_getElem?_getD, List.getD_eq_getElem?_getD, ho2 j le_rfl]
          rw [r1, rd_getD 0 (show i < f.length by omega)]
          simp only [Out.ok_bind]
          rw [wr_of_lt (by omega)]
          refine ⟨_, rfl, by simpa using ho, fun t m' ht htj => ?_, fun t ht => ?_⟩
          · by_cases htj' : j = t
            · subst htj'
              rw [hm] at ht
              obtain rfl := Option.some.inj ht
              rw [List.getD_eq_getElem?_getD, List.getElem?_set_self (by omega), Option.getD_some]
              have term := ((Approx.exact A.nonneg 0 (val (f.getD i 0))).mul A.nonneg hW (A.mul _ _)).mul A.nonneg hV (A.mul _ _)
              have := (hval j m hm).add A.nonneg (term.mono A.nonneg (by omega)) (A.add _ _)
              simp only [hps, has, partialSum, absSum] at this ⊢
              rw [Finset.sum_range_succ, Finset.sum_range_succ, List.getD_eq_getElem?_getD (l := gridPoints (reals val nodes)), hpt,
                Option.getD_some, reals_length, getD_map_val A]
              rw [reals_length] at this
              have e3 : ∀ a b c : ℝ, a * b * c = b * (a * c) := fun a b c => by ring
              rw [e3, e3] at this
              exact this
            · rw [List.getD_eq_getElem?_getD, List.getElem?_set_ne htj', ← List.getD_eq_getElem?_getD]
              exact ho1 t m' ht (by omega)
          · rw [List.getElem?_set_ne (by omega)]
            exact ho2 t (by omega))
      exact ⟨(it', out'), e2, hre', hlen', fun j m hm => hval1 j m hm (List.getElem?_eq_some_iff.1 hm).1⟩)
  rw [hN] at e hval
  simp only at hlen hval
  refine ⟨out, ?_, hlen, hval⟩
  rw [transformF]
  simp only [hsize, Out.ok_bind, if_true, htot, ecube, hL.iter]
  rw [e]
  rfl

theorem ops_le {fourier n degree : ℕ} (h : n ≤ degree) : ops fourier n ≤ 8 * degree + 5 := by
  rw [ops]
  split <;> omega

theorem basisOps_le {dim degree : ℕ} {fourier m : List ℕ} (h : ∀ x ∈ m, x ≤ degree) : basisOps dim fourier m ≤ dim * (8 * degree + 6) := by
  rw [basisOps]
  refine (Finset.sum_le_card_nsmul _ _ (8 * degree + 6) fun k _ => ?_).trans (by simp)
  have : m.getD k 0 ≤ degree := by
    rw [List.getD_eq_getElem?_getD]
    cases hk : m[k]? with
    | none => simp
    | some x => simpa using h x (List.mem_of_getElem? hk)
  have := ops_le (fourier := fourier.getD k 0) this
  omega

/-- The sum of the absolute values of the terms of a series. -/
noncomputable def seriesAbs (dim : ℕ) (fourier : List ℕ) (L : List (List ℕ)) (c : List ℝ) (p : List ℝ) (n : ℕ) : ℝ :=
  ∑ j ∈ Finset.range n, |c.getD j 0| * basisAbs dim fourier (L.getD j []) p

theorem transformF_backward_ok (A : Accurate α val u) {slack : ℕ} {s : IndexSet} {degree : ℕ} (hdeg : degree < 2 ^ 32)
    {nodes : List (List α)} (weights : List (List α)) {fourier : List ℕ}
    (hz : Sized s nodes.length degree) (hg : Spec.Grid (reals val nodes) fourier) (hd : DegreeOk slack s degree fourier)
    {L : List IVec} (hL : IterOk s nodes.length degree L) {c : List α} (hc : c.length = L.length) :
    ∃ r, transformF slack s degree c nodes weights fourier false = .ok r ∧ r.length = (gridPoints (reals val nodes)).length ∧
      ∀ (i : ℕ) (p : List ℝ), (gridPoints (reals val nodes))[i]? = some p →
        Approx u (nodes.length * (8 * degree + 6) + 1 + L.length) (val (r.getD i 0)) (series nodes.length fourier L (c.map val) p)
          (seriesAbs nodes.length fourier L (c.map val) p L.length) := by
  obtain ⟨hne, hb, hN, htot⟩ := hg.bounds
  rw [reals_lengths] at hne hb hN htot
  have hsize := hL.size hz.dim_pos (by rw [hL.length]; exact hz.card_lt)
  obtain ⟨cube, ecube, hC⟩ := basisCubeF_ok A (slack := slack) hdeg (nodes := nodes) (fourier := fourier)
    (by rw [hg.flags.1, reals_length]) (hd.row hg.flags.2)
  obtain ⟨g, ⟨it, out⟩, e, -, hlen, hval, -⟩ := gridLoop_inv hne hb
    (acc := (freshIter nodes.length L, List.replicate (gridPoints (reals val nodes)).length (0 : α)))
    (body := fun i p st => do
      countLoop L.length st.1.reset st.2 fun j m output => do
        let val ← valAtF nodes.length cube p m
        let old ← rd output i
        let x ← rd c j
        wr output i (old + x * 1 * val))
    (fun i st => st.1.reset = freshIter nodes.length L ∧ st.2.length = (gridPoints (reals val nodes)).length ∧
      (∀ (t : ℕ) (p : List ℝ), (gridPoints (reals val nodes))[t]? = some p → t < i →
        Approx u (nodes.length * (8 * degree + 6) + 1 + L.length) (val (st.2.getD t 0)) (series nodes.length fourier L (c.map val) p)
          (seriesAbs nodes.length fourier L (c.map val) p L.length)) ∧
      ∀ t < (gridPoints (reals val nodes)).length, i ≤ t → st.2[t]? = some 0)
    ⟨freshIter_reset _ _, by simp, fun t p _ h => absurd h (Nat.not_lt_zero _), fun t ht _ => by simp [ht]⟩
    (by
      rintro i p ⟨it, out⟩ hp ⟨hre, hlen, hval, hrest⟩
      simp only at hre hlen hval hrest
      have hpm := mem_boxList.1 (List.mem_of_getElem? hp)
      have hi : i < (gridPoints (reals val nodes)).length := by rw [← hN]; exact (List.getElem?_eq_some_iff.1 hp).1
      have hpR : (boxList ((reals val nodes).map List.length))[i]? = some p := by rw [reals_lengths]; exact hp
      have hpt := grid_getD hpR
      rw [hre]
      obtain ⟨it', out', e2, hre', hlen', hval1, hval2⟩ := hL.countLoop (acc := out)
        (body := fun j m output => do
          let val ← valAtF nodes.length cube p m
          let old ← rd output i
          let x ← rd c j
          wr output i (old + x * 1 * val))
        (fun j o => o.length = (gridPoints (reals val nodes)).length ∧
          Approx u (nodes.length * (8 * degree + 6) + 1 + j) (val (o.getD i 0))
            (∑ t ∈ Finset.range j, (c.map val).getD t 0 * basis nodes.length fourier (L.getD t []) (pick 0 (reals val nodes) p))
            (seriesAbs nodes.length fourier L (c.map val) (pick 0 (reals val nodes) p) j) ∧
          ∀ t, t ≠ i → o[t]? = out[t]?)
        ⟨hlen, by
          rw [List.getD_eq_getElem?_getD, hrest i hi le_rfl, Option.getD_some, A.zero, seriesAbs, Finset.range_zero, Finset.sum_empty,
            Finset.sum_empty]
          have := Approx.exact A.nonneg (nodes.length * (8 * degree + 6) + 1 + 0) (0 : ℝ)
          rwa [abs_zero] at this, fun _ _ => rfl⟩
        (by
          rintro j m o hm ⟨ho, ho1, ho2⟩
          have hj := (List.getElem?_eq_some_iff.1 hm).1
          have hin := (hL.mem m).1 (List.mem_of_getElem? hm)
          have hmd := inSet_le hd.cross hin
          obtain ⟨v, ev, hV⟩ := valAtF_ok A hC hpm (inSet_length hin) hmd
          rw [ev, rd_getD 0 (show i < o.length by omega), rd_getD 0 (show j < c.length by omega)]
          simp only [Out.ok_bind]
          rw [wr_of_lt (by omega)]
          refine ⟨_, rfl, by simpa using ho, ?_, fun t ht => ?_⟩
          · rw [List.getD_eq_getElem?_getD, List.getElem?_set_self (by omega), Option.getD_some, seriesAbs, Finset.sum_range_succ,
              Finset.sum_range_succ, mul_one]
            have : L.getD j [] = m := by rw [List.getD_eq_getElem?_getD, hm]; rfl
            rw [this, getD_map_val A]
            have term := (Approx.exact A.nonneg 0 (val (c.getD j 0))).mul A.nonneg hV (A.mul _ _)
            have hle := basisOps_le (dim := nodes.length) (fourier := fourier) hmd
            exact ho1.add A.nonneg (term.mono A.nonneg (k' := nodes.length * (8 * degree + 6) + 1 + j) (by omega)) (A.add _ _)
          · rw [List.getElem?_set_ne (fun h => ht h.symm)]
            exact ho2 t ht)
      refine ⟨(it', out'), e2, hre', hlen', fun t q ht hti => ?_, fun t ht hit => ?_⟩
      · by_cases h : t = i
        · subst h
          rw [hpt] at ht
          obtain rfl := Option.some.inj ht
          exact hval1
        · simp only
          rw [List.getD_eq_getElem?_getD, hval2 t h, ← List.getD_eq_getElem?_getD]
          exact hval t q ht (by omega)
      · simp only
        rw [hval2 t (by omega)]
        exact hrest t ht (by omega))
  rw [hN] at e hval
  simp only at hlen hval
  refine ⟨out, ?_, hlen, fun i p hp => hval i p hp (List.getElem?_eq_some_iff.1 hp).1⟩
  rw [transformF]
  simp only [hsize, Out.ok_bind, htot, ecube, hL.iter, Bool.false_eq_true, if_false]
  rw [e]
  rfl

/-! ## Integrals -/

theorem factorF_ok (A : Accurate α val u) : ∀ (l : List ℕ) (t : α) (k : ℕ) (y : ℝ), 0 ≤ y → Approx u k (val t) y y →
    ∃ M, 0 ≤ M ∧ M = y * (l.map fun f => if f = 1 then √(2 * Real.pi) else 1).prod ∧
      Approx u (k + 5 * l.length)
        (val (l.foldl (fun t f => t * (if f = 1 then Floats.sqrt (Floats.ofNat 2 * Floats.pi) else 1)) t)) M M
  | [], t, k, y, hy, h => ⟨y, hy, by simp, by simpa using h⟩
  | f :: l, t, k, y, hy, h => by
    have step : Approx u (k + 5) (val (t * (if f = 1 then Floats.sqrt (Floats.ofNat 2 * Floats.pi) else 1)))
        (y * (if f = 1 then √(2 * Real.pi) else 1)) (y * (if f = 1 then √(2 * Real.pi) else 1)) := by
      by_cases hf : f = 1
      · rw [if_pos hf, if_pos hf]
        exact h.mul A.nonneg (A.roottwopi_rel.approx A.nonneg) (A.mul _ _)
      · rw [if_neg hf, if_neg hf, mul_one, mul_one]
        exact h.mono A.nonneg (by omega)
    obtain ⟨M, hM, e, hA⟩ := factorF_ok A l _ _ _ (by split <;> positivity) step
    refine ⟨M, hM, by rw [e, List.map_cons, List.prod_cons, mul_assoc], ?_⟩
    rw [List.foldl_cons, List.length_cons, show k + 5 * (l.length + 1) = k + 5 + 5 * l.length by ring]
    exact hA

theorem integrateF_ok (A : Accurate α val u) {slack : ℕ} {nodes weights : List (List α)} {fourier : List ℕ}
    (hg : Spec.Grid (reals val nodes) fourier) (hs : 0 ∈ fourier → 1 ≤ slack) (hw : weights.map List.length = nodes.map List.length)
    {f : List α} (hf : f.length = (gridPoints (reals val nodes)).length) :
    ∃ r, integrateF slack f nodes weights fourier = .ok r ∧
      Approx u (12 * nodes.length + 3 + f.length) (val r) (quadrature (reals val nodes) (reals val weights) fun i _ => (f.map val).getD i 0)
        (∑ i ∈ Finset.range f.length, |(gridWeights (reals val weights)).getD i 0| * |(f.map val).getD i 0|) := by
  have hdim : 1 ≤ nodes.length := by
    have := List.length_pos_iff.2 hg.dim_pos
    rwa [reals_length] at this
  obtain ⟨hz, hL⟩ := triangle_zero hdim
  obtain ⟨r, e, hl, hr⟩ := transformF_forward_ok A (by norm_num) hz hg ⟨by simp, fun h => Or.inr (hs h), by simp⟩ hw hL hf
  have hr := hr 0 _ rfl
  have hfl : fourier.length = nodes.length := by rw [hg.flags.1, reals_length]
  obtain ⟨F, hF, eF, hA⟩ := factorF_ok A fourier 1 0 1 zero_le_one (A.one_rel.approx A.nonneg)
  refine ⟨_, by rw [integrateF, e]; simp only [Out.ok_bind]; rw [rd_getD 0 (by rw [hl]; simp)]; rfl, ?_⟩
  have key := hA.mul A.nonneg hr (A.mul _ _)
  have hb0 : ∀ p, basisAbs nodes.length fourier (List.replicate nodes.length 0) p =
      ∏ k ∈ Finset.range nodes.length, if fourier.getD k 0 = 1 then 1 / √(2 * Real.pi) else 1 := by
    intro p
    rw [basisAbs]
    apply Finset.prod_congr rfl
    intro k hk
    rw [phiAbs]
    have : (List.replicate nodes.length 0).getD k 0 = 0 := by simp [Finset.mem_range.1 hk]
    rw [this, trigAbs_zero, hermAbs_zero]
  have hb : ∀ p, basis nodes.length fourier (List.replicate nodes.length 0) p =
      ∏ k ∈ Finset.range nodes.length, if fourier.getD k 0 = 1 then 1 / √(2 * Real.pi) else 1 := by
    intro p
    rw [basis]
    apply Finset.prod_congr rfl
    intro k hk
    rw [phi]
    have : (List.replicate nodes.length 0).getD k 0 = 0 := by simp [Finset.mem_range.1 hk]
    rw [this, trig_zero, herm_zero]
  have hprod : F = ∏ k ∈ Finset.range nodes.length, if fourier.getD k 0 = 1 then √(2 * Real.pi) else 1 := by
    rw [eF, one_mul, list_prod_getD, List.length_map, hfl]
    apply Finset.prod_congr rfl
    intro k hk
    have : k < fourier.length := by rw [hfl]; exact Finset.mem_range.1 hk
    simp [this]
  have hone : F * (∏ k ∈ Finset.range nodes.length, if fourier.getD k 0 = 1 then 1 / √(2 * Real.pi) else 1) = 1 := by
    rw [hprod, ← Finset.prod_mul_distrib]
    apply Finset.prod_eq_one
    intro k _
    by_cases h : fourier.getD k 0 = 1
    · rw [if_pos h, if_pos h]
      have : √(2 * Real.pi) ≠ 0 := (Real.sqrt_pos.2 (by positivity)).ne'
      field_simp
    · rw [if_neg h, if_neg h, one_mul]
  have e1 : F * quadrature (reals val nodes) (reals val weights)
      (fun i p => (f.map val).getD i 0 * basis nodes.length fourier (List.replicate nodes.length 0) p) =
      quadrature (reals val nodes) (reals val weights) fun i _ => (f.map val).getD i 0 := by
    rw [quadrature, quadrature, Finset.mul_sum]
    apply Finset.sum_congr rfl
    intro i _
    rw [hb]
    linear_combination (gridWeights (reals val weights)).getD i 0 * (f.map val).getD i 0 * hone
  have e2 : F * absSum (reals val nodes) (reals val weights) (f.map val) fourier (List.replicate nodes.length 0)
      (gridPoints (reals val nodes)).length =
      ∑ i ∈ Finset.range f.length, |(gridWeights (reals val weights)).getD i 0| * |(f.map val).getD i 0| := by
    rw [absSum, Finset.mul_sum, hf]
    apply Finset.sum_congr rfl
    intro i _
    rw [reals_length, hb0]
    linear_combination |(gridWeights (reals val weights)).getD i 0| * |(f.map val).getD i 0| * hone
  rw [e1, e2] at key
  refine key.mono A.nonneg ?_
  have := basisOps_le (dim := nodes.length) (degree := 0) (fourier := fourier) (m := List.replicate nodes.length 0)
    (by intro x hx; rw [(List.mem_replicate.1 hx).2])
  rw [hfl, ← hf]
  omega

end Hermipy
