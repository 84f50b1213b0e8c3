import Verif.Lemmas.Series
import Verif.Lemmas.Converters

namespace Hermipy
open Spec
variable {Φ : Type}

/-- What the constructor found out about an accepted series. -/
theorem Spec.SeriesOk.degree {f : HSeries Φ} (h : SeriesOk f) :
    f.index_set.s_get_degree f.position.dim f.coeffs.length = .ok f.degree := by
  have := h.made
  rw [mkSeries, if_neg h.dirs] at this
  cases hg : f.index_set.s_get_degree f.position.dim f.coeffs.length with
  | stop s => rw [hg] at this; cases this
  | diverge => rw [hg] at this; cases this
  | ok d =>
    rw [hg, Out.ok_bind, if_neg (PosOk.dim_pos h.pos h.dirs)] at this
    cases hl : f.index_set.s_list f.position.dim d with
    | stop s => rw [hl] at this; cases this
    | diverge => rw [hl] at this; cases this
    | ok L' =>
      rw [hl, Out.ok_bind, Out.ok_bind] at this
      beta_reduce at this
      split at this
      · cases this
      · have e := congrArg HSeries.degree (Out.ok.inj this)
        have e : d = f.degree := e
        rw [e]

theorem Spec.VarfOk.degree {A : HVarf Φ} (h : VarfOk A) :
    A.index_set.s_get_degree A.position.dim A.matrix.length = .ok A.degree := by
  have := h.made
  rw [mkVarf] at this
  cases hg : A.index_set.s_get_degree A.position.dim A.matrix.length with
  | stop s => rw [hg] at this; cases this
  | diverge => rw [hg] at this; cases this
  | ok d =>
    rw [hg, Out.ok_bind] at this
    cases hl : A.index_set.s_list A.position.dim d with
    | stop s => rw [hl] at this; cases this
    | diverge => rw [hl] at this; cases this
    | ok L' =>
      rw [hl, Out.ok_bind] at this
      split at this
      · cases this
      · have e := congrArg HVarf.degree (Out.ok.inj this)
        have e : d = A.degree := e
        rw [e]

/-- The constructor accepts every vector of the same length, and finds the same degree. -/
theorem remake_series {coeffs : List ℝ} {p : Position} {factor : Φ} {s : IndexSet} {d : ℕ} {L : List IVec} (hp : PosOk p)
    (hd : p.dirs ≠ []) (hu : Usable s p.dim d) (hL : IterOk s p.dim d L) (hlen : coeffs.length = L.length)
    (hdeg : s.s_get_degree p.dim L.length = .ok d) :
    mkSeries coeffs p factor s = .ok ⟨coeffs, p, d, factor, s⟩ ∧ SeriesOk (⟨coeffs, p, d, factor, s⟩ : HSeries Φ) := by
  have e : mkSeries coeffs p factor s = .ok ⟨coeffs, p, d, factor, s⟩ := by
    rw [mkSeries, if_neg hd, hlen, hdeg, Out.ok_bind, if_neg (PosOk.dim_pos hp hd), hL.list, Out.ok_bind, Out.ok_bind]
    beta_reduce
    rw [if_neg (by simp)]
  exact ⟨e, hp, hd, hu, e⟩

theorem remake_varf {b : Bool} {M : List (List ℝ)} {p : Position} {factor : Φ} {s : IndexSet} {d : ℕ} {L : List IVec} (hp : PosOk p)
    (hd : p.dirs ≠ []) (hu : Usable s p.dim d) (hL : IterOk s p.dim d L) (hlen : M.length = L.length)
    (hsq : ∀ r ∈ M, r.length = M.length) (hdeg : s.s_get_degree p.dim L.length = .ok d) :
    mkVarf b M p factor s = .ok ⟨b, M, p, d, factor, s⟩ ∧ VarfOk (⟨b, M, p, d, factor, s⟩ : HVarf Φ) := by
  have e : mkVarf b M p factor s = .ok ⟨b, M, p, d, factor, s⟩ := by
    rw [mkVarf, hlen, hdeg, Out.ok_bind, hL.list, Out.ok_bind, if_neg (by simp)]
  exact ⟨e, hp, hd, hu, e, hsq⟩

theorem dim_of_dirs {p q : Position} (hp : PosOk p) (hq : PosOk q) (h : p.dirs = q.dirs) : p.dim = q.dim := by
  rw [← hp.dirs, ← hq.dirs, h]

/-- The index sets are not empty. -/
theorem IterOk.length_pos {s : IndexSet} {dim d : ℕ} {L : List IVec} (h : IterOk s dim d L) : 0 < L.length := by
  have : L ≠ [] := by
    intro e
    have := h.runs
    rw [e] at this
    cases this
  exact List.length_pos_iff.2 this

theorem coef_map {f : HSeries Φ} (φ : ℝ → ℝ) (m : List ℕ) (c : ℝ) :
    Coef { f with coeffs := f.coeffs.map φ } m c ↔ ∃ a, Coef f m a ∧ c = φ a := by
  constructor
  · rintro ⟨L, k, h1, h2, h3⟩
    obtain ⟨a, ha, rfl⟩ := by simpa using h3
    exact ⟨a, ⟨L, k, h1, h2, ha⟩, rfl⟩
  · rintro ⟨a, ⟨L, k, h1, h2, h3⟩, rfl⟩
    exact ⟨L, k, h1, h2, by simp [h3]⟩

theorem entry_map {A : HVarf Φ} (φ : ℝ → ℝ) (I J : List ℕ) (c : ℝ) :
    Entry { A with matrix := A.matrix.map fun r => r.map φ } I J c ↔ ∃ a, Entry A I J a ∧ c = φ a := by
  constructor
  · rintro ⟨L, i, j, r, h1, h2, h3, h4, h5⟩
    obtain ⟨r', hr, rfl⟩ := by simpa using h4
    obtain ⟨a, ha, rfl⟩ := by simpa using h5
    exact ⟨a, ⟨L, i, j, r', h1, h2, h3, hr, ha⟩, rfl⟩
  · rintro ⟨a, ⟨L, i, j, r, h1, h2, h3, h4, h5⟩, rfl⟩
    exact ⟨L, i, j, r.map φ, h1, h2, h3, by simp [h4], by simp [h5]⟩

end Hermipy
