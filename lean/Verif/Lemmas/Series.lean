import Verif.Spec.Series
import Verif.Lemmas.Position
import Verif.Lemmas.Small

namespace Hermipy
open Spec
variable {Φ : Type}

theorem PosOk.dim_pos {p : Position} (h : PosOk p) (hd : p.dirs ≠ []) : p.dim ≠ 0 := by
  rw [← h.dirs]
  exact fun e => hd (List.length_eq_zero_iff.1 e)

theorem usable_congr {s : IndexSet} {dim d d' : ℕ} (h : Usable s dim d) (hs : SameSets s d' d) : Usable s dim d' := by
  obtain ⟨L, h1, h2, h3, h4⟩ := h.toSized.open hs
  obtain ⟨L', e, a1, a2, a3⟩ := h.readable
  have : L = L' := h1.unique (IterOk.of_list h.toSized.fits' a1)
  subst this
  exact ⟨⟨h.dim_pos, (hs.fits h.toSized.fits').2, L, h2.list, h4⟩, L, e, h2.list, a2, fun k m => (a3 k m).trans (hs k m).symm⟩

/-- The constructor accepts a vector of the right length. -/
theorem mkSeries_usable {coeffs : List ℝ} {p : Position} {factor : Φ} {s : IndexSet} {d : ℕ} {L : List IVec} (hp : PosOk p)
    (hd : p.dirs ≠ []) (hu : Usable s p.dim d) (hL : IterOk s p.dim d L) (hlen : coeffs.length = L.length) :
    ∃ d', mkSeries coeffs p factor s = .ok ⟨coeffs, p, d', factor, s⟩ ∧ IterOk s p.dim d' L ∧ SameSets s d' d := by
  obtain ⟨d', e, hs⟩ := hu.degree hL
  obtain ⟨L', h1, h2, h3, h4⟩ := hu.toSized.open hs
  have : L' = L := h1.unique hL
  subst this
  refine ⟨d', ?_, h2, hs⟩
  rw [mkSeries, if_neg hd, hlen, e, Out.ok_bind, if_neg (PosOk.dim_pos hp hd), h2.list, Out.ok_bind, Out.ok_bind]
  beta_reduce
  rw [if_neg (by simp)]

theorem mkSeries_ok {coeffs : List ℝ} {p : Position} {factor : Φ} {s : IndexSet} {d : ℕ} {L : List IVec} (hp : PosOk p)
    (hd : p.dirs ≠ []) (hu : Usable s p.dim d) (hL : IterOk s p.dim d L) (hlen : coeffs.length = L.length) :
    ∃ g : HSeries Φ, mkSeries coeffs p factor s = .ok g ∧ SeriesOk g ∧ g.coeffs = coeffs ∧ g.position = p ∧ g.factor = factor ∧
      g.index_set = s ∧ IterOk s p.dim g.degree L ∧ SameSets s g.degree d := by
  obtain ⟨d', e, h1, h2⟩ := mkSeries_usable (factor := factor) hp hd hu hL hlen
  exact ⟨_, e, ⟨hp, hd, usable_congr hu h2, e⟩, rfl, rfl, rfl, rfl, h1, h2⟩

theorem Spec.SeriesOk.list {f : HSeries Φ} (h : SeriesOk f) :
    ∃ L, IterOk f.index_set f.position.dim f.degree L ∧ f.coeffs.length = L.length := by
  obtain ⟨L, hL⟩ := iterOk_exists h.usable.toSized.fits'
  refine ⟨L, hL, ?_⟩
  have := h.made
  rw [mkSeries, if_neg h.dirs] at this
  cases hg : f.index_set.s_get_degree f.position.dim f.coeffs.length with
  | stop s => rw [hg] at this; cases this
  | diverge => rw [hg] at this; cases this
  | ok d =>
    rw [hg, Out.ok_bind, if_neg (PosOk.dim_pos h.pos h.dirs)] at this
    have hl : f.index_set.s_list f.position.dim d = .ok L := by
      cases hl : f.index_set.s_list f.position.dim d with
      | stop s => rw [hl] at this; cases this
      | diverge => rw [hl] at this; cases this
      | ok L' =>
        rw [hl, Out.ok_bind, Out.ok_bind] at this
        beta_reduce at this
        split at this
        · cases this
        · have e := congrArg HSeries.degree (Out.ok.inj this)
          have e : d = f.degree := e
          rw [e, hL.list] at hl
          exact hl.symm
    rw [hl, Out.ok_bind, Out.ok_bind] at this
    beta_reduce at this
    split at this
    · cases this
    · rename_i h
      exact (not_not.1 h).symm

theorem coef_iff {f : HSeries Φ} {L : List IVec} (hL : f.index_set.s_list f.position.dim f.degree = .ok L) (m : List ℕ) (c : ℝ) :
    Coef f m c ↔ ∃ k : ℕ, L[k]? = some m ∧ f.coeffs[k]? = some c := by
  constructor
  · rintro ⟨L', k, h, h1, h2⟩
    rw [hL] at h
    cases h
    exact ⟨k, h1, h2⟩
  · rintro ⟨k, h1, h2⟩
    exact ⟨L, k, hL, h1, h2⟩

/-- Every multi-index of the set has exactly one coefficient. -/
theorem Spec.SeriesOk.coef {f : HSeries Φ} (h : SeriesOk f) : (∀ m, Indices f m ↔ ∃ c, Coef f m c) ∧
    ∀ m c c', Coef f m c → Coef f m c' → c = c' := by
  obtain ⟨L, hL, hlen⟩ := h.list
  constructor
  · intro m
    rw [Indices, ← hL.mem]
    constructor
    · intro hm
      obtain ⟨k, hk, rfl⟩ := List.getElem_of_mem hm
      exact ⟨f.coeffs[k], (coef_iff hL.list _ _).2 ⟨k, by simp, by simp⟩⟩
    · rintro ⟨c, hc⟩
      obtain ⟨k, h1, -⟩ := (coef_iff hL.list _ _).1 hc
      exact List.mem_of_getElem? h1
  · intro m c c' hc hc'
    obtain ⟨k, h1, h2⟩ := (coef_iff hL.list _ _).1 hc
    obtain ⟨k', h1', h2'⟩ := (coef_iff hL.list _ _).1 hc'
    have : k = k' := by
      obtain ⟨hk, e⟩ := List.getElem?_eq_some_iff.1 h1
      obtain ⟨hk', e'⟩ := List.getElem?_eq_some_iff.1 h1'
      exact (hL.nodup.getElem_inj_iff).1 (e.trans e'.symm)
    rw [← this, h2] at h2'
    exact Option.some.inj h2'

theorem mkVarf_ok {b : Bool} {M : List (List ℝ)} {p : Position} {factor : Φ} {s : IndexSet} {d : ℕ} {L : List IVec} (hp : PosOk p)
    (hd : p.dirs ≠ []) (hu : Usable s p.dim d) (hL : IterOk s p.dim d L) (hlen : M.length = L.length)
    (hsq : ∀ r ∈ M, r.length = M.length) :
    ∃ g : HVarf Φ, mkVarf b M p factor s = .ok g ∧ VarfOk g ∧ g.is_sparse = b ∧ g.matrix = M ∧ g.position = p ∧ g.factor = factor ∧
      g.index_set = s ∧ IterOk s p.dim g.degree L ∧ SameSets s g.degree d := by
  obtain ⟨d', e, hs⟩ := hu.degree hL
  obtain ⟨L', h1, h2, h3, h4⟩ := hu.toSized.open hs
  have : L' = L := h1.unique hL
  subst this
  have e' : mkVarf b M p factor s = .ok ⟨b, M, p, d', factor, s⟩ := by
    rw [mkVarf, hlen, e, Out.ok_bind, h2.list, Out.ok_bind, if_neg (by simp)]
  exact ⟨_, e', ⟨hp, hd, usable_congr hu hs, e', hsq⟩, rfl, rfl, rfl, rfl, rfl, h2, hs⟩

theorem Spec.VarfOk.list {f : HVarf Φ} (h : VarfOk f) :
    ∃ L, IterOk f.index_set f.position.dim f.degree L ∧ f.matrix.length = L.length := by
  obtain ⟨L, hL⟩ := iterOk_exists h.usable.toSized.fits'
  refine ⟨L, hL, ?_⟩
  have := h.made
  rw [mkVarf] at this
  cases hg : f.index_set.s_get_degree f.position.dim f.matrix.length with
  | stop s => rw [hg] at this; cases this
  | diverge => rw [hg] at this; cases this
  | ok d =>
    rw [hg, Out.ok_bind] at this
    have hl : f.index_set.s_list f.position.dim d = .ok L := by
      cases hl : f.index_set.s_list f.position.dim d with
      | stop s => rw [hl] at this; cases this
      | diverge => rw [hl] at this; cases this
      | ok L' =>
        rw [hl, Out.ok_bind] at this
        split at this
        · cases this
        · have e := congrArg HVarf.degree (Out.ok.inj this)
          have e : d = f.degree := e
          rw [e, hL.list] at hl
          exact hl.symm
    rw [hl, Out.ok_bind] at this
    split at this
    · cases this
    · rename_i h
      exact (not_not.1 h).symm

theorem entry_iff {A : HVarf Φ} {L : List IVec} (hL : A.index_set.s_list A.position.dim A.degree = .ok L) (I J : List ℕ) (c : ℝ) :
    Entry A I J c ↔ ∃ (i j : ℕ) (r : List ℝ), L[i]? = some I ∧ L[j]? = some J ∧ A.matrix[i]? = some r ∧ r[j]? = some c := by
  constructor
  · rintro ⟨L', i, j, r, h, h1, h2, h3, h4⟩
    rw [hL] at h
    cases h
    exact ⟨i, j, r, h1, h2, h3, h4⟩
  · rintro ⟨i, j, r, h1, h2, h3, h4⟩
    exact ⟨L, i, j, r, hL, h1, h2, h3, h4⟩

/-- Every pair of multi-indices of the set has exactly one entry. -/
theorem Spec.VarfOk.entry {A : HVarf Φ} (h : VarfOk A) :
    (∀ I J, (InSet A.index_set A.position.dim A.degree I ∧ InSet A.index_set A.position.dim A.degree J) ↔ ∃ c, Entry A I J c) ∧
    ∀ I J c c', Entry A I J c → Entry A I J c' → c = c' := by
  obtain ⟨L, hL, hlen⟩ := h.list
  have inj : ∀ {i j : ℕ} {m}, L[i]? = some m → L[j]? = some m → i = j := by
    intro i j m h1 h2
    obtain ⟨hk, e⟩ := List.getElem?_eq_some_iff.1 h1
    obtain ⟨hk', e'⟩ := List.getElem?_eq_some_iff.1 h2
    exact (hL.nodup.getElem_inj_iff).1 (e.trans e'.symm)
  constructor
  · intro I J
    rw [← hL.mem, ← hL.mem]
    constructor
    · rintro ⟨hI, hJ⟩
      obtain ⟨i, hi, rfl⟩ := List.getElem_of_mem hI
      obtain ⟨j, hj, rfl⟩ := List.getElem_of_mem hJ
      have hi' : i < A.matrix.length := by omega
      have hj' : j < (A.matrix[i]).length := by rw [h.square _ (List.getElem_mem hi')]; omega
      exact ⟨A.matrix[i][j], (entry_iff hL.list _ _ _).2 ⟨i, j, A.matrix[i], by simp, by simp, by simp, by simp⟩⟩
    · rintro ⟨c, hc⟩
      obtain ⟨i, j, r, h1, h2, -⟩ := (entry_iff hL.list _ _ _).1 hc
      exact ⟨List.mem_of_getElem? h1, List.mem_of_getElem? h2⟩
  · intro I J c c' hc hc'
    obtain ⟨i, j, r, h1, h2, h3, h4⟩ := (entry_iff hL.list _ _ _).1 hc
    obtain ⟨i', j', r', h1', h2', h3', h4'⟩ := (entry_iff hL.list _ _ _).1 hc'
    rw [← inj h1 h1', h3] at h3'
    cases h3'
    rw [← inj h2 h2', h4] at h4'
    exact Option.some.inj h4'

/-- An injective rearrangement of the positions of the multi-indices. -/
theorem getElem_of_prefix {α : Type} {L L' : List α} (h : L <+: L') (hn : L'.Nodup) {k : ℕ} {m : α} (hm : m ∈ L) :
    L'[k]? = some m ↔ L[k]? = some m := by
  obtain ⟨t, rfl⟩ := h
  constructor
  · intro hk
    obtain ⟨j, hj, rfl⟩ := List.getElem_of_mem hm
    obtain ⟨hk1, e⟩ := List.getElem?_eq_some_iff.1 hk
    have : k = j := by
      have h2 : (L ++ t)[j]'(by simp; omega) = L[j] := List.getElem_append_left hj
      exact (hn.getElem_inj_iff).1 (e.trans h2.symm)
    subst this
    simp
  · intro hk
    obtain ⟨hk1, e⟩ := List.getElem?_eq_some_iff.1 hk
    rw [List.getElem?_append_left hk1]
    exact hk

end Hermipy
