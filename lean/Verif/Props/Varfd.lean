import Verif.Lemmas.VarfdMat
import Verif.Lemmas.Derivative
import Verif.Lemmas.VarfExact
import Verif.Lemmas.Small

/-!
# Properties C38 - C42: derivative forms

`varfd` takes a matrix whose rows and columns follow the listing of an index set. Column `J` of the result is the form against the
derivative of the basis function of `J`.
-/

namespace Hermipy.Props

open Hermipy.Spec

variable {T : Type} [MatOps T ℝ] [Stored T ℝ] [Meaning T ℝ] [LawfulMat T ℝ] [LawfulStored T ℝ]

/-- The ublas storages satisfy the laws. -/
example : LawfulStored (SpMat ℝ) ℝ ∧ LawfulStored (BMat ℝ) ℝ := ⟨inferInstance, inferInstance⟩

/-- C39. In a Hermite direction the entry at `(I, J)` is `√J_d` times the entry at `(I, J - e_d)`, and 0 if `J_d = 0`. -/
theorem C39_entries (s : IndexSet) (dim degree d : Nat) (hz : Sized s dim degree) (hd : d < dim) (L : List (List Nat))
    (hL : s.s_list dim degree = .ok L) (A : T) (f : Nat → Nat → ℝ) (hA : IsMat A L.length L.length f) :
    ∃ R : T, varfd s dim degree d A 0 = .ok R ∧ IsMat R L.length L.length (fun i j =>
      if (L.getD j []).getD d 0 = 0 then 0
      else √((L.getD j []).getD d 0 : ℝ) * entry L f (L.getD i []) (lower d (L.getD j []))) := by
  have ok := IterOk.of_list hz.fits' hL
  obtain ⟨R, e, hR⟩ := varfd_hermite_ok hz ok hd hA
  refine ⟨R, e, LawfulMat.congr hR fun i j hi hj => ?_⟩
  have mi : L.getD i [] ∈ L := by simp [hi]
  have mj : InSet s dim degree (L.getD j []) := (ok.mem _).1 (by simp [hj])
  have ml : lower d (L.getD j []) ∈ L := (ok.mem _).2 (inSet_set mj (by omega))
  have hidx : L.idxOf (L.getD i []) = i := idxOf_of_getElem? ok.nodup (by simp [hi])
  have hent : entry L f (L.getD i []) (lower d (L.getD j [])) = f i (L.idxOf (lower d (L.getD j []))) := by
    rw [entry, if_pos ⟨mi, ml⟩, hidx]
  beta_reduce
  rw [hent]
  by_cases h0 : (L.getD j []).getD d 0 = 0
  · rw [if_pos h0, h0]; simp
  · rw [if_neg h0]

theorem gridPoint_length {nodes : List (List ℝ)} {i : Nat} {p : List ℝ} (h : (gridPoints nodes)[i]? = some p) :
    p.length = nodes.length := by
  have hm := List.mem_of_getElem? h
  rw [gridPoints] at hm
  clear h
  induction nodes generalizing p with
  | nil => simp [cartesian] at hm; simp [hm]
  | cons n ns ih =>
    simp only [cartesian, List.mem_flatMap, List.mem_map] at hm
    obtain ⟨x, -, q, hq, rfl⟩ := hm
    simp [ih hq]

/-- C39. If the matrix is the form of `f`, the result is the form against the derivatives: the entry at `(I, J)` is the quadrature
of `f φ_I ∂_d φ_J`. -/
theorem C39_form (s : IndexSet) (degree d : Nat) (nodes weights : List (List ℝ)) (fourier : List Nat)
    (hz : Sized s nodes.length degree) (hd : d < nodes.length) (hf : fourier.getD d 0 ≠ 1) (L : List (List Nat))
    (hL : s.s_list nodes.length degree = .ok L) (F : Nat → List ℝ → ℝ) (A : T)
    (hA : IsMat A L.length L.length (fun i j => quadrature nodes weights fun k p =>
      F k p * (basis nodes.length fourier (L.getD i []) p * basis nodes.length fourier (L.getD j []) p))) :
    ∃ R : T, varfd s nodes.length degree d A 0 = .ok R ∧ IsMat R L.length L.length (fun i j => quadrature nodes weights fun k p =>
      F k p * (basis nodes.length fourier (L.getD i []) p * dbasis nodes.length fourier d (L.getD j []) p)) := by
  have ok := IterOk.of_list hz.fits' hL
  obtain ⟨R, e, hR⟩ := varfd_hermite_ok hz ok hd hA
  refine ⟨R, e, LawfulMat.congr hR fun i j hi hj => ?_⟩
  have mj : InSet s nodes.length degree (L.getD j []) := (ok.mem _).1 (by simp [hj])
  have ml : lower d (L.getD j []) ∈ L := (ok.mem _).2 (inSet_set mj (by omega))
  have hg : L.getD (L.idxOf (lower d (L.getD j []))) [] = lower d (L.getD j []) := by
    rw [List.getD_eq_getElem?_getD, getElem?_idxOf' ml]; rfl
  rw [hg, ← quadrature_smul]
  apply quadrature_congr
  intro k p hk
  rw [dbasis_hermite hd hf (by rw [inSet_length mj]; exact hd) (by rw [gridPoint_length hk]; exact hd)]
  ring

/-- C40, partial: in a Fourier direction, for sets that contain with a sine the cosine of the same wave number, the entry at `(I, J)`
is the signed wave number of `J` times the entry at `(I, partner of J)`. Missing: the other sets, for which the call fails, see
`C40_returns_iff` and `C40_throws`. -/
theorem C40_entries_partial (s : IndexSet) (dim degree d : Nat) (hz : Sized s dim degree) (hd : d < dim)
    (hp : PairClosed s dim degree d) (L : List (List Nat)) (hL : s.s_list dim degree = .ok L) (A : T) (f : Nat → Nat → ℝ)
    (hA : IsMat A L.length L.length f) :
    ∃ R : T, varfd s dim degree d A 1 = .ok R ∧ IsMat R L.length L.length (fun i j =>
      if (L.getD j []).getD d 0 = 0 then 0
      else (signedWave d (L.getD j []) : ℝ) * entry L f (L.getD i []) (partner d (L.getD j []))) := by
  have ok := IterOk.of_list hz.fits' hL
  obtain ⟨R, e, hR⟩ := varfd_fourier_ok (T := T) one_ne_zero hz ok hd hA (by
    intro x hx hodd
    have hc := ((LawfulStored.stored hA).2.1 x hx).2.1
    exact (ok.mem _).2 (hp _ ((ok.mem _).1 (by simp [hc])) hodd))
  refine ⟨R, e, LawfulMat.congr hR fun i j hi hj => ?_⟩
  have mi : L.getD i [] ∈ L := by simp [hi]
  have hidx : L.idxOf (L.getD i []) = i := idxOf_of_getElem? ok.nodup (by simp [hi])
  by_cases h0 : (L.getD j []).getD d 0 = 0
  · have : signedWave d (L.getD j []) = 0 := by rw [signedWave, h0]; rfl
    rw [if_pos h0, this]; simp
  · rw [if_neg h0, entry, hidx]
    by_cases hm : partner d (L.getD j []) ∈ L
    · rw [if_pos hm, if_pos ⟨mi, hm⟩]
    · rw [if_neg hm, if_neg (fun h => hm h.2)]

/-- C40. If the matrix is the form of `f`, the result is the form against the derivatives. -/
theorem C40_form (s : IndexSet) (degree d : Nat) (nodes weights : List (List ℝ)) (fourier : List Nat)
    (hz : Sized s nodes.length degree) (hd : d < nodes.length) (hf : fourier.getD d 0 = 1)
    (hp : PairClosed s nodes.length degree d) (L : List (List Nat))
    (hL : s.s_list nodes.length degree = .ok L) (F : Nat → List ℝ → ℝ) (A : T)
    (hA : IsMat A L.length L.length (fun i j => quadrature nodes weights fun k p =>
      F k p * (basis nodes.length fourier (L.getD i []) p * basis nodes.length fourier (L.getD j []) p))) :
    ∃ R : T, varfd s nodes.length degree d A 1 = .ok R ∧ IsMat R L.length L.length (fun i j => quadrature nodes weights fun k p =>
      F k p * (basis nodes.length fourier (L.getD i []) p * dbasis nodes.length fourier d (L.getD j []) p)) := by
  have ok := IterOk.of_list hz.fits' hL
  obtain ⟨R, e, hR⟩ := C40_entries_partial (T := T) s nodes.length degree d hz hd hp L hL A _ hA
  refine ⟨R, e, LawfulMat.congr hR fun i j hi hj => ?_⟩
  have mi : L.getD i [] ∈ L := by simp [hi]
  have hidx : L.idxOf (L.getD i []) = i := idxOf_of_getElem? ok.nodup (by simp [hi])
  have mj : InSet s nodes.length degree (L.getD j []) := (ok.mem _).1 (by simp [hj])
  have hq : quadrature nodes weights (fun k p => F k p * (basis nodes.length fourier (L.getD i []) p *
      dbasis nodes.length fourier d (L.getD j []) p)) = (signedWave d (L.getD j []) : ℝ) * quadrature nodes weights (fun k p =>
      F k p * (basis nodes.length fourier (L.getD i []) p * basis nodes.length fourier (partner d (L.getD j [])) p)) := by
    rw [← quadrature_smul]
    apply quadrature_congr
    intro k p hk
    rw [dbasis_fourier hd hf (by rw [inSet_length mj]; exact hd) (by rw [gridPoint_length hk]; exact hd)]
    ring
  rw [hq]
  by_cases h0 : (L.getD j []).getD d 0 = 0
  · have : signedWave d (L.getD j []) = 0 := by rw [signedWave, h0]; rfl
    rw [if_pos h0, this]; simp
  · have ml : partner d (L.getD j []) ∈ L := by
      by_cases he : (L.getD j []).getD d 0 % 2 = 0
      · exact (ok.mem _).2 (partner_mem mj he)
      · exact (ok.mem _).2 (hp _ mj (by omega))
    have hg : L.getD (L.idxOf (partner d (L.getD j []))) [] = partner d (L.getD j []) := by
      rw [List.getD_eq_getElem?_getD, getElem?_idxOf' ml]; rfl
    rw [if_neg h0, entry, if_pos ⟨mi, ml⟩, hidx, hg]

/-- C40: the call on a dense matrix returns exactly when the set contains with each sine the cosine of the same wave number; otherwise
it throws. -/
theorem C40_returns_iff (s : IndexSet) (dim degree d : Nat) (hz : Sized s dim degree) (hd : d < dim) (L : List (List Nat))
    (hL : s.s_list dim degree = .ok L) (A : BMat ℝ) (f : Nat → Nat → ℝ) (hA : IsMat A L.length L.length f) :
    (PairClosed s dim degree d → ∃ R, varfd s dim degree d A 1 = .ok R) ∧
    (¬PairClosed s dim degree d → varfd s dim degree d A 1 = .throws) := by
  have ok := IterOk.of_list hz.fits' hL
  constructor
  · intro hp
    obtain ⟨R, e, -⟩ := C40_entries_partial (T := BMat ℝ) s dim degree d hz hd hp L hL A f hA
    exact ⟨R, e⟩
  · intro hp
    rw [PairClosed] at hp
    push Not at hp
    obtain ⟨J, hJ, hodd, hne⟩ := hp
    obtain ⟨c, hc, ec⟩ := List.mem_iff_getElem.1 ((ok.mem _).2 hJ)
    have hgc : L.getD c [] = J := by simp [hc, ec]
    refine varfd_fourier_throws (T := BMat ℝ) one_ne_zero hz ok hd hA ⟨((0, c), A.data.getD (0 * A.size2 + c) 0), ?_, ?_, ?_⟩
    · simp only [Stored.stored, List.mem_flatMap, List.mem_range, List.mem_map]
      obtain ⟨h1, h2, -, -⟩ := hA
      exact ⟨0, by omega, c, by omega, rfl⟩
    · simp only [hgc, hodd]
    · simp only [hgc]
      exact fun h => hne ((ok.mem _).1 h)

/-- C40: sets with this property. In one dimension all sets (even degree); the cube for even degrees; the rectangle in the first
direction for even degrees and in the others when `degree / 2` is even. -/
theorem C40_closed (s : IndexSet) (dim degree d : Nat) (he : degree % 2 = 0) (hc : s = .cross ∨ s = .cross_nc → 1 ≤ degree)
    (h : dim = 1 ∨ s = .cube ∨ (s = .rectangle ∧ (d = 0 ∨ degree / 2 % 2 = 0))) : PairClosed s dim degree d := by
  intro J hJ hodd
  have hdl : d < J.length := by
    by_contra hd
    rw [List.getD_eq_getElem?_getD, List.getElem?_eq_none (by omega)] at hodd
    simp at hodd
  rw [partner, if_neg (by omega)]
  rcases h with rfl | rfl | ⟨rfl, h⟩
  · obtain ⟨a, rfl⟩ := List.length_eq_one_iff.1 (inSet_length hJ)
    obtain rfl : d = 0 := by simpa using hdl
    have h1 := (inSet_one hc a).1 hJ
    simp only [List.getD_cons_zero, List.set_cons_zero] at hodd ⊢
    exact (inSet_one hc _).2 (by omega)
  · refine ⟨by simpa using hJ.1, fun x hx => ?_⟩
    rcases List.mem_or_eq_of_mem_set hx with hx | rfl
    · exact hJ.2 x hx
    · have := hJ.2 (J.getD d 0) (by simp [hdl])
      omega
  · refine ⟨by simpa using hJ.1, fun i hi => ?_⟩
    have hi' : i < J.length := by simpa using hi
    rw [List.getElem_set]
    by_cases hdi : d = i
    · subst hdi
      rw [if_pos rfl]
      have := hJ.2 d hdl
      have hg : J.getD d 0 = J[d] := by simp [hdl]
      rw [hg] at hodd ⊢
      split_ifs at this ⊢ <;> omega
    · rw [if_neg hdi]
      exact hJ.2 i hi'

theorem not_pairClosed (s : IndexSet) (degree : Nat) (h2 : 2 ≤ degree) (he : degree % 2 = 0) (hs : s ≠ .cube)
    (hr : s = .rectangle → degree / 2 % 2 = 1) : ¬PairClosed s 2 degree (if s = .rectangle then 1 else 0) := by
  intro hp
  cases s
  · have h1 := hp [1, degree - 1] ⟨rfl, by simp; omega⟩ (by simp)
    have := h1.2
    simp [partner] at this
    omega
  · exact hs rfl
  · have h1 := hp [1, degree] ⟨rfl, by simp⟩ (by simp)
    have := h1.2
    simp [partner] at this
    omega
  · have h1 := hp [1, degree] ⟨rfl, by simp⟩ (by simp)
    have := h1.2
    simp [partner] at this
    omega
  · have hd := hr rfl
    have h1 := hp [0, degree / 2] ⟨rfl, fun i hi => by
      have hi : i < 2 := hi
      have : i = 0 ∨ i = 1 := by omega
      rcases this with rfl | rfl <;> simp⟩ (by simp [hd])
    have := h1.2 1 (by simp [partner])
    simp [partner, hd] at this

/-- C40 is false for the triangle and the crosses in two dimensions, and for the rectangle when `degree / 2` is odd: the call on any
dense matrix throws. -/
theorem C40_throws (s : IndexSet) (degree : Nat) (h2 : 2 ≤ degree) (he : degree % 2 = 0) (hs : s ≠ .cube)
    (hr : s = .rectangle → degree / 2 % 2 = 1) (hz : Sized s 2 degree) (L : List (List Nat))
    (hL : s.s_list 2 degree = .ok L) (A : BMat ℝ) (f : Nat → Nat → ℝ) (hA : IsMat A L.length L.length f) :
    varfd s 2 degree (if s = .rectangle then 1 else 0) A 1 = .throws :=
  (C40_returns_iff s 2 degree _ hz (by split_ifs <;> omega) L hL A f hA).2 (not_pairClosed s degree h2 he hs hr)

/-- C38 for `varfd` in a Hermite direction: dense and compressed matrices give the same entries. -/
theorem C38_varfd_hermite (s : IndexSet) (dim degree d : Nat) (hz : Sized s dim degree) (hd : d < dim) (L : List (List Nat))
    (hL : s.s_list dim degree = .ok L) (B : BMat ℝ) (S : SpMat ℝ) (f : Nat → Nat → ℝ) (hB : IsMat B L.length L.length f)
    (hS : IsMat S L.length L.length f) :
    ∃ (B' : BMat ℝ) (S' : SpMat ℝ) (g : Nat → Nat → ℝ), varfd s dim degree d B 0 = .ok B' ∧ varfd s dim degree d S 0 = .ok S' ∧
      IsMat B' L.length L.length g ∧ IsMat S' L.length L.length g := by
  obtain ⟨B', e1, h1⟩ := C39_entries s dim degree d hz hd L hL B f hB
  obtain ⟨S', e2, h2⟩ := C39_entries s dim degree d hz hd L hL S f hS
  exact ⟨B', S', _, e1, e2, h1, h2⟩

/-- C38 for `varfd` in a Fourier direction: dense and compressed matrices give the same entries, if the set contains with each sine the
cosine of the same wave number. -/
theorem C38_varfd_fourier_partial (s : IndexSet) (dim degree d : Nat) (hz : Sized s dim degree) (hd : d < dim)
    (hp : PairClosed s dim degree d) (L : List (List Nat)) (hL : s.s_list dim degree = .ok L) (B : BMat ℝ) (S : SpMat ℝ)
    (f : Nat → Nat → ℝ) (hB : IsMat B L.length L.length f) (hS : IsMat S L.length L.length f) :
    ∃ (B' : BMat ℝ) (S' : SpMat ℝ) (g : Nat → Nat → ℝ), varfd s dim degree d B 1 = .ok B' ∧ varfd s dim degree d S 1 = .ok S' ∧
      IsMat B' L.length L.length g ∧ IsMat S' L.length L.length g := by
  obtain ⟨B', e1, h1⟩ := C40_entries_partial s dim degree d hz hd hp L hL B f hB
  obtain ⟨S', e2, h2⟩ := C40_entries_partial s dim degree d hz hd hp L hL S f hS
  exact ⟨B', S', _, e1, e2, h1, h2⟩

/-- C38 fails for `varfd` in a Fourier direction for the other sets: on the zero matrix, the dense variant throws and the compressed
variant (nothing stored) returns. -/
theorem C38_varfd_fourier_false (s : IndexSet) (dim degree d : Nat) (hz : Sized s dim degree) (hd : d < dim)
    (hp : ¬PairClosed s dim degree d) (L : List (List Nat)) (hL : s.s_list dim degree = .ok L) :
    varfd s dim degree d (MatOps.construct L.length L.length : BMat ℝ) 1 = .throws ∧
      ∃ S', varfd s dim degree d (MatOps.construct L.length L.length : SpMat ℝ) 1 = .ok S' := by
  have ok := IterOk.of_list hz.fits' hL
  refine ⟨(C40_returns_iff s dim degree d hz hd L hL _ _ (LawfulMat.construct (M := BMat ℝ) _ _)).2 hp, ?_⟩
  obtain ⟨R, e, -⟩ := varfd_fourier_ok (T := SpMat ℝ) one_ne_zero hz ok hd (LawfulMat.construct (M := SpMat ℝ) _ _) (by
    intro x hx
    simp [Stored.stored, MatOps.construct] at hx)
  exact ⟨R, e⟩

/-- The hypothesis holds, for example, for the triangle of degree 2. -/
example : ¬PairClosed .triangle 2 2 0 := not_pairClosed .triangle 2 (by omega) (by omega) (by simp) (by simp)

/-- C41 in a Hermite direction: the variant for nested vectors computes the same entries. -/
theorem C41_hermite (s : IndexSet) (dim degree d : Nat) (hz : Sized s dim degree) (hd : d < dim) (L : List (List Nat))
    (hL : s.s_list dim degree = .ok L) (A : T) (D : DMat ℝ) (f : Nat → Nat → ℝ) (hA : IsMat A L.length L.length f)
    (hD : IsMat D L.length L.length f) :
    ∃ (R : T) (R' : DMat ℝ) (g : Nat → Nat → ℝ), varfd s dim degree d A 0 = .ok R ∧ varfd_mat s dim degree d D 0 = .ok R' ∧
      IsMat R L.length L.length g ∧ IsMat R' L.length L.length g := by
  have ok := IterOk.of_list hz.fits' hL
  obtain ⟨R, e, hR⟩ := varfd_hermite_ok hz ok hd hA
  obtain ⟨R', e', hR'⟩ := varfd_mat_ok (fl := 0) hz ok hd hD (fun J hJ _ => by
    rw [srcIdx, if_pos rfl]
    exact (ok.mem _).2 (inSet_set ((ok.mem _).1 hJ) (by omega)))
  refine ⟨R, R', _, e, e', hR, LawfulMat.congr hR' fun i j hi hj => ?_⟩
  by_cases h0 : (L.getD j []).getD d 0 = 0
  · rw [if_neg (by simpa using h0), h0]; simp
  · rw [if_pos h0, srcFactor, if_neg (by omega), srcIdx, if_pos rfl]

/-- C41, partial, in a Fourier direction: the variant for nested vectors computes the same entries in the sine columns. In the cosine
columns of wave number `k` it multiplies by `2 ^ 32 - k` where the other variant multiplies by `-k`. -/
theorem C41_fourier_partial (s : IndexSet) (dim degree d : Nat) (hz : Sized s dim degree) (hd : d < dim)
    (hp : PairClosed s dim degree d) (L : List (List Nat)) (hL : s.s_list dim degree = .ok L) (A : T) (D : DMat ℝ)
    (f : Nat → Nat → ℝ) (hA : IsMat A L.length L.length f) (hD : IsMat D L.length L.length f) :
    ∃ (R : T) (R' : DMat ℝ) (g g' : Nat → Nat → ℝ), varfd s dim degree d A 1 = .ok R ∧ varfd_mat s dim degree d D 1 = .ok R' ∧
      IsMat R L.length L.length g ∧ IsMat R' L.length L.length g' ∧ ∀ i j, i < L.length → j < L.length →
        ((L.getD j []).getD d 0 % 2 = 1 → g' i j = g i j) ∧
        ((L.getD j []).getD d 0 % 2 = 0 → (L.getD j []).getD d 0 ≠ 0 →
          g' i j = g i j + 2 ^ 32 * entry L f (L.getD i []) (partner d (L.getD j []))) := by
  have ok := IterOk.of_list hz.fits' hL
  obtain ⟨R, e, hR⟩ := C40_entries_partial s dim degree d hz hd hp L hL A f hA
  have hpm : ∀ J ∈ L, partner d J ∈ L := by
    intro J hJ
    by_cases he : J.getD d 0 % 2 = 0
    · exact (ok.mem _).2 (partner_mem ((ok.mem _).1 hJ) he)
    · exact (ok.mem _).2 (hp _ ((ok.mem _).1 hJ) (by omega))
  obtain ⟨R', e', hR'⟩ := varfd_mat_ok (fl := 1) hz ok hd hD (fun J hJ _ => by
    rw [srcIdx, if_neg (by omega)]
    exact hpm J hJ)
  refine ⟨R, R', _, _, e, e', hR, hR', fun i j hi hj => ?_⟩
  have mi : L.getD i [] ∈ L := by simp [hi]
  have mj : L.getD j [] ∈ L := by simp [hj]
  have hidx : L.idxOf (L.getD i []) = i := idxOf_of_getElem? ok.nodup (by simp [hi])
  have hent : entry L f (L.getD i []) (partner d (L.getD j [])) = f i (L.idxOf (partner d (L.getD j []))) := by
    rw [entry, if_pos ⟨mi, hpm _ mj⟩, hidx]
  have hle := entry_le hz ((ok.mem _).1 mj) d
  constructor
  · intro hodd
    rw [if_pos (by omega), if_neg (by omega), hent, srcFactor, if_pos rfl, if_neg (by omega), srcIdx, if_neg (by omega),
      signedWave, if_pos hodd, Int.cast_natCast]
  · intro heven h0
    rw [if_pos h0, if_neg h0, hent, srcFactor, if_pos rfl, if_pos heven, srcIdx, if_neg (by omega), signedWave, if_neg (by omega),
      wrap32_of_lt (by simp only [u32]; omega), Nat.cast_sub (by omega), Int.cast_neg, Int.cast_natCast]
    simp only [u32]
    push_cast
    ring

/-- C41 is false in a Fourier direction: for the cube in one dimension, degree 2 and the identity matrix the variants differ. -/
theorem C41_fourier_false : ∃ (A : BMat ℝ) (D : DMat ℝ) (f : Nat → Nat → ℝ) (R : BMat ℝ) (R' : DMat ℝ) (g g' : Nat → Nat → ℝ),
    IsMat A 3 3 f ∧ IsMat D 3 3 f ∧ varfd .cube 1 2 0 A 1 = .ok R ∧ varfd_mat .cube 1 2 0 D 1 = .ok R' ∧ IsMat R 3 3 g ∧
      IsMat R' 3 3 g' ∧ g 1 2 = -1 ∧ g' 1 2 = 2 ^ 32 - 1 := by
  have hz : Sized .cube 1 2 := (usable_small .cube (by omega) (by omega) (by omega)).toSized
  obtain ⟨L, hL⟩ := list_exists _ hz
  have ok := IterOk.of_list hz.fits' hL
  have hline : L = [[0], [1], [2]] := by rw [ok.line (by simp)]; rfl
  have hlen : L.length = 3 := by rw [hline]; rfl
  let f : Nat → Nat → ℝ := fun i j => if i = j then 1 else 0
  let A : BMat ℝ := ⟨3, 3, [1, 0, 0, 0, 1, 0, 0, 0, 1]⟩
  let D : DMat ℝ := [[1, 0, 0], [0, 1, 0], [0, 0, 1]]
  have hA : IsMat A 3 3 f := by
    refine ⟨rfl, rfl, rfl, fun i j hi hj => ?_⟩
    have hi : i = 0 ∨ i = 1 ∨ i = 2 := by omega
    have hj : j = 0 ∨ j = 1 ∨ j = 2 := by omega
    rcases hi with rfl | rfl | rfl <;> rcases hj with rfl | rfl | rfl <;> simp [A, f]
  have hD : IsMat D 3 3 f := by
    refine ⟨rfl, by simp [D], fun i j r x hr hx => ?_⟩
    have hi : i < 3 := (List.getElem?_eq_some_iff.1 hr).1
    have hi : i = 0 ∨ i = 1 ∨ i = 2 := by omega
    have hrl : r.length = 3 := by
      rcases hi with rfl | rfl | rfl <;> (simp only [D] at hr; simp at hr; subst hr; rfl)
    have hj : j < 3 := by rw [← hrl]; exact (List.getElem?_eq_some_iff.1 hx).1
    have hj : j = 0 ∨ j = 1 ∨ j = 2 := by omega
    rcases hi with rfl | rfl | rfl <;> rcases hj with rfl | rfl | rfl <;>
      (simp [D] at hr; subst hr; simp at hx; simp [f, ← hx])
  obtain ⟨R, R', g, g', e, e', hR, hR', h⟩ := C41_fourier_partial .cube 1 2 0 hz (by omega)
    (C40_closed _ _ _ _ (by omega) (by simp) (by simp)) L hL A D f (by rw [hlen]; exact hA) (by rw [hlen]; exact hD)
  obtain ⟨R2, e2, hR2⟩ := C40_entries_partial .cube 1 2 0 hz (by omega) (C40_closed _ _ _ _ (by omega) (by simp) (by simp)) L hL A f
    (by rw [hlen]; exact hA)
  obtain rfl : R = R2 := by
    rw [e] at e2
    exact Out.ok.inj e2
  rw [hlen] at hR hR' hR2 h
  have h1 : g 1 2 = -1 := by
    have a1 := hR.2.2.2 1 2 (by omega) (by omega)
    have a2 := hR2.2.2.2 1 2 (by omega) (by omega)
    rw [a1] at a2
    have := Option.some.inj a2
    rw [this, hline]
    simp [signedWave, entry, partner, f]
  refine ⟨A, D, f, R, R', g, g', hA, hD, e, e', hR, hR', h1, ?_⟩
  have := (h 1 2 (by omega) (by omega)).2 (by rw [hline]; rfl) (by rw [hline]; simp)
  rw [this, h1, hline]
  simp [entry, partner, f]
  norm_num

/-- C42. Derivatives in two Hermite directions commute. -/
theorem C42_commute (s : IndexSet) (dim degree d d' : Nat) (hz : Sized s dim degree) (hd : d < dim) (hd' : d' < dim)
    (L : List (List Nat)) (hL : s.s_list dim degree = .ok L) (A : T) (f : Nat → Nat → ℝ) (hA : IsMat A L.length L.length f) :
    ∃ (R1 R2 R12 R21 : T) (g : Nat → Nat → ℝ), varfd s dim degree d A 0 = .ok R1 ∧ varfd s dim degree d' R1 0 = .ok R12 ∧
      varfd s dim degree d' A 0 = .ok R2 ∧ varfd s dim degree d R2 0 = .ok R21 ∧
      IsMat R12 L.length L.length g ∧ IsMat R21 L.length L.length g := by
  have ok := IterOk.of_list hz.fits' hL
  obtain ⟨R1, e1, h1⟩ := varfd_hermite_ok hz ok hd hA
  obtain ⟨R12, e12, h12⟩ := varfd_hermite_ok hz ok hd' h1
  obtain ⟨R2, e2, h2⟩ := varfd_hermite_ok hz ok hd' hA
  obtain ⟨R21, e21, h21⟩ := varfd_hermite_ok hz ok hd h2
  refine ⟨R1, R2, R12, R21, _, e1, e12, e2, e21, h12, LawfulMat.congr h21 fun i j hi hj => ?_⟩
  by_cases hdd : d = d'
  · subst hdd; rfl
  have mj : InSet s dim degree (L.getD j []) := (ok.mem _).1 (by simp [hj])
  have key : ∀ k, L.getD (L.idxOf (lower k (L.getD j []))) [] = lower k (L.getD j []) := by
    intro k
    have ml : lower k (L.getD j []) ∈ L := (ok.mem _).2 (inSet_set mj (by omega))
    rw [List.getD_eq_getElem?_getD, getElem?_idxOf' ml]; rfl
  rw [key, key]
  obtain ⟨J, hJ⟩ : ∃ J, J = L.getD j [] := ⟨_, rfl⟩
  rw [← hJ]
  have a1 : (lower d J).getD d' 0 = J.getD d' 0 := by simp [lower, hdd]
  have a2 : (lower d' J).getD d 0 = J.getD d 0 := by simp [lower, Ne.symm hdd]
  have a3 : lower d' (lower d J) = lower d (lower d' J) := by
    rw [lower, a1, lower, lower, a2, lower, List.set_comm _ _ hdd]
  rw [a1, a2, a3]
  ring

/-- The multi-index whose column is read for the derivative in direction `d`, and the factor. -/
def target (fl d : Nat) (J : List Nat) : List Nat := if fl = 0 then lower d J else partner d J

noncomputable def rate (fl d : Nat) (J : List Nat) : ℝ := if fl = 0 then √(J.getD d 0 : ℝ) else (signedWave d J : ℝ)

theorem varfd_any_ok {s : IndexSet} {dim degree d fl : Nat} (hz : Sized s dim degree) (hd : d < dim) (hp : fl ≠ 0 → PairClosed s dim degree d)
    {L : List (List Nat)} (ok : IterOk s dim degree L) {A : T} {f : Nat → Nat → ℝ} (hA : IsMat A L.length L.length f) :
    (∀ J ∈ L, target fl d J ∈ L) ∧ ∃ R : T, varfd s dim degree d A fl = .ok R ∧
      IsMat R L.length L.length (fun i j => rate fl d (L.getD j []) * f i (L.idxOf (target fl d (L.getD j [])))) := by
  by_cases h0 : fl = 0
  · subst h0
    obtain ⟨R, e, hR⟩ := varfd_hermite_ok hz ok hd hA
    refine ⟨fun J hJ => (ok.mem _).2 ?_, R, e, LawfulMat.congr hR fun i j hi hj => rfl⟩
    exact inSet_set ((ok.mem _).1 hJ) (by omega)
  · have ht : ∀ J ∈ L, target fl d J ∈ L := by
      intro J hJ
      rw [target, if_neg h0]
      have hJ := (ok.mem _).1 hJ
      refine (ok.mem _).2 ?_
      by_cases hodd : J.getD d 0 % 2 = 1
      · exact hp h0 J hJ hodd
      · rw [partner, if_pos (by omega)]
        exact inSet_set hJ (by omega)
    obtain ⟨R, e, hR⟩ := varfd_fourier_ok (T := T) h0 hz ok hd hA (by
      intro x hx hodd
      have hc := ((LawfulStored.stored hA).2.1 x hx).2.1
      exact (ok.mem _).2 (hp h0 _ ((ok.mem _).1 (by simp [hc])) hodd))
    refine ⟨ht, R, e, LawfulMat.congr hR fun i j hi hj => ?_⟩
    have := ht (L.getD j []) (by simp [hj])
    rw [target, if_neg h0] at this
    beta_reduce
    rw [if_pos this, rate, target, if_neg h0, if_neg h0]

/-- C42. Derivatives in two different directions commute, whatever the kinds of the directions, as long as the set contains with a sine in a
Fourier direction the cosine of the same wave number (otherwise `varfd` may fail, see C40). -/
theorem C42_commute_mixed (s : IndexSet) (dim degree d d' fl fl' : Nat) (hz : Sized s dim degree) (hd : d < dim) (hd' : d' < dim)
    (hne : d ≠ d') (hp : fl ≠ 0 → PairClosed s dim degree d) (hp' : fl' ≠ 0 → PairClosed s dim degree d')
    (L : List (List Nat)) (hL : s.s_list dim degree = .ok L) (A : T) (f : Nat → Nat → ℝ) (hA : IsMat A L.length L.length f) :
    ∃ (R1 R2 R12 R21 : T) (g : Nat → Nat → ℝ), varfd s dim degree d A fl = .ok R1 ∧ varfd s dim degree d' R1 fl' = .ok R12 ∧
      varfd s dim degree d' A fl' = .ok R2 ∧ varfd s dim degree d R2 fl = .ok R21 ∧
      IsMat R12 L.length L.length g ∧ IsMat R21 L.length L.length g := by
  have ok := IterOk.of_list hz.fits' hL
  obtain ⟨t1, R1, e1, h1⟩ := varfd_any_ok hz hd hp ok hA
  obtain ⟨t2, R12, e12, h12⟩ := varfd_any_ok hz hd' hp' ok h1
  obtain ⟨-, R2, e2, h2⟩ := varfd_any_ok hz hd' hp' ok hA
  obtain ⟨-, R21, e21, h21⟩ := varfd_any_ok hz hd hp ok h2
  refine ⟨R1, R2, R12, R21, _, e1, e12, e2, e21, h12, LawfulMat.congr h21 fun i j hi hj => ?_⟩
  have mj : L.getD j [] ∈ L := by simp [hj]
  have key : ∀ J ∈ L, L.getD (L.idxOf J) [] = J := by
    intro J hJ
    rw [List.getD_eq_getElem?_getD, getElem?_idxOf' hJ]; rfl
  rw [key _ (t1 _ mj), key _ (t2 _ mj)]
  obtain ⟨J, hJ⟩ : ∃ J, J = L.getD j [] := ⟨_, rfl⟩
  rw [← hJ]
  have other : ∀ (fl k k' : Nat) (J : List Nat), k ≠ k' → (target fl k J).getD k' 0 = J.getD k' 0 := by
    intro fl k k' J h
    unfold target
    split <;> simp [lower, partner, h]
  have hrate : ∀ (fl fl' k k' : Nat), k ≠ k' → rate fl k (target fl' k' J) = rate fl k J := by
    intro fl fl' k k' h
    simp only [rate, signedWave, other fl' k' k J h.symm]
  have hset : ∀ (fl k : Nat) (J : List Nat), target fl k J =
      J.set k (if fl = 0 then J.getD k 0 - 1 else if J.getD k 0 % 2 = 0 then J.getD k 0 - 1 else J.getD k 0 + 1) := by
    intro fl k J
    unfold target
    split <;> rfl
  have hcomm : target fl d (target fl' d' J) = target fl' d' (target fl d J) := by
    rw [hset fl d (target fl' d' J), hset fl' d' (target fl d J), other _ _ _ _ hne, other _ _ _ _ hne.symm, hset fl d J, hset fl' d' J,
      List.set_comm _ _ hne.symm]
  rw [hrate fl fl' d d' hne, hrate fl' fl d' d hne.symm, hcomm]
  ring

/-- The hypotheses hold for a cube of even degree with a Fourier direction and a Hermite one. -/
example : Sized .cube 2 4 ∧ PairClosed .cube 2 4 0 ∧ ∃ L, IndexSet.cube.s_list 2 4 = .ok L ∧
    IsMat (MatOps.construct L.length L.length : SpMat ℝ) L.length L.length (fun _ _ => (0 : ℝ)) := by
  have hz : Sized .cube 2 4 := (usable_small .cube (by omega) (by omega) (by omega)).toSized
  obtain ⟨L, hL⟩ := list_exists _ hz
  exact ⟨hz, C40_closed _ _ _ _ (by omega) (by simp) (by simp), L, hL, LawfulMat.construct _ _⟩

/-- The hypotheses hold, for example, for the triangle in dimension 3 with degree 5 and the zero matrix. -/
example : Sized .triangle 3 5 ∧ ∃ L, IndexSet.triangle.s_list 3 5 = .ok L ∧
    IsMat (MatOps.construct L.length L.length : SpMat ℝ) L.length L.length (fun _ _ => (0 : ℝ)) := by
  have hz : Sized .triangle 3 5 := (usable_small .triangle (by omega) (by omega) (by omega)).toSized
  obtain ⟨L, hL⟩ := list_exists _ hz
  exact ⟨hz, L, hL, LawfulMat.construct _ _⟩

end Hermipy.Props
