import Verif.Props.Core
import Verif.Props.Converters
import Verif.Props.Sparse
import Verif.Props.Transform
import Verif.Props.Varf
import Verif.Props.Varfd

/-! # Transforms and variational forms as called from Python

C85. -/

namespace Hermipy.Props

open Hermipy.Spec Hermipy.Core

/-- The arrays that the functions on grids accept: a vector and two matrices, none of them empty. -/
def GridArrays (f : List ℝ) (nodes weights : List (List ℝ)) : Prop := f ≠ [] ∧ nodes.getD 0 [] ≠ [] ∧ weights.getD 0 [] ≠ []

theorem gridArgs_ok {f : List ℝ} {nodes weights : List (List ℝ)} (h : GridArrays f nodes weights) :
    gridArgs (nestVec f) (nestMat nodes) (nestMat weights) = .ok (f, nodes, weights) := by
  rw [gridArgs, to_cpp_vec h.1, Out.ok_bind, to_cpp_mat h.2.1, Out.ok_bind, to_cpp_mat h.2.2, Out.ok_bind]

theorem gridArrays_of_grid {nodes weights : List (List ℝ)} {fourier : List ℕ} (hg : Grid nodes fourier) (h0 : ∀ r ∈ nodes, r ≠ [])
    (hw : weights.map List.length = nodes.map List.length) {f : List ℝ} (hf : f ≠ []) : GridArrays f nodes weights := by
  have hn := hg.1
  match nodes, weights, hw, h0, hn with
  | n :: ns, w :: ws, hw, h0, _ =>
    refine ⟨hf, h0 n (by simp), ?_⟩
    simp only [List.map_cons, List.cons.injEq] at hw
    have := h0 n (by simp)
    rw [List.getD_cons_zero]
    intro h
    rw [h] at hw
    exact this (List.length_eq_zero_iff.1 hw.1.symm)

/-- C85. Without the argument `do_fourier` all directions are of Hermite type. -/
theorem C85_default (slack degree : ℕ) (fgrid weights : Nest) (nodes : List (List ℝ)) (forward sparse : Bool) (name : String) :
    Core.integrate slack fgrid (nestMat nodes) weights none = Core.integrate slack fgrid (nestMat nodes) weights (some (List.replicate nodes.length 0)) ∧
    Core.transform slack degree fgrid (nestMat nodes) weights forward none name =
      Core.transform slack degree fgrid (nestMat nodes) weights forward (some (List.replicate nodes.length 0)) name ∧
    Core.varf slack degree fgrid (nestMat nodes) weights sparse none name =
      Core.varf slack degree fgrid (nestMat nodes) weights sparse (some (List.replicate nodes.length 0)) name := by
  have e : doFourier (nestMat nodes) none = doFourier (nestMat nodes) (some (List.replicate nodes.length 0)) := by
    simp [doFourier, nestMat]
  refine ⟨?_, ?_, ?_⟩
  · rw [Core.integrate, e]; rfl
  · rw [Core.transform, e]; rfl
  · rw [Core.varf, e]; rfl

/-- C85. On nonempty arrays integrals and transforms are those of the C++ functions for the set with the given name. -/
theorem C85_calls (slack degree : ℕ) (s : IndexSet) (f : List ℝ) (nodes weights : List (List ℝ)) (h : GridArrays f nodes weights)
    (fourier : List ℕ) (forward : Bool) :
    Core.integrate slack (nestVec f) (nestMat nodes) (nestMat weights) (some fourier) = Hermipy.integrate slack f nodes weights fourier ∧
    Core.transform slack degree (nestVec f) (nestMat nodes) (nestMat weights) forward (some fourier) (setName s) =
      Hermipy.transform slack s degree f nodes weights fourier forward := by
  constructor
  · rw [Core.integrate, doFourier, Out.ok_bind, gridArgs_ok h, Out.ok_bind]
  · rw [Core.transform, doFourier, Out.ok_bind, gridArgs_ok h, Out.ok_bind]
    exact dispatch_name s _

/-- C85. The forward transform from Python: the quadrature of the function against each basis function. -/
theorem C85_forward (slack : ℕ) (s : IndexSet) (degree : ℕ) (nodes weights : List (List ℝ)) (fourier : List ℕ)
    (hz : Sized s nodes.length degree) (hg : Grid nodes fourier) (hd : DegreeOk slack s degree fourier) (h0 : ∀ r ∈ nodes, r ≠ [])
    (hw : weights.map List.length = nodes.map List.length) (L : List (List ℕ)) (hL : s.s_list nodes.length degree = .ok L)
    (f : List ℝ) (hne : f ≠ []) (hf : f.length = (gridPoints nodes).length) :
    Core.transform slack degree (nestVec f) (nestMat nodes) (nestMat weights) true (some fourier) (setName s) =
      .ok (L.map fun m => quadrature nodes weights fun i p => f.getD i 0 * basis nodes.length fourier m p) := by
  rw [(C85_calls slack degree s f nodes weights (gridArrays_of_grid hg h0 hw hne) fourier true).2]
  exact C26_forward slack s degree nodes weights fourier hz hg hd hw L hL f hf

/-- C85. The backward transform from Python: the values of the series at the points of the grid. -/
theorem C85_backward (slack : ℕ) (s : IndexSet) (degree : ℕ) (nodes weights : List (List ℝ)) (fourier : List ℕ)
    (hz : Sized s nodes.length degree) (hg : Grid nodes fourier) (hd : DegreeOk slack s degree fourier) (h0 : ∀ r ∈ nodes, r ≠ [])
    (hw : weights.map List.length = nodes.map List.length) (L : List (List ℕ)) (hL : s.s_list nodes.length degree = .ok L)
    (c : List ℝ) (hc : c.length = L.length) :
    Core.transform slack degree (nestVec c) (nestMat nodes) (nestMat weights) false (some fourier) (setName s) =
      .ok ((gridPoints nodes).map (series nodes.length fourier L c)) := by
  have hne : c ≠ [] := by
    rintro rfl
    obtain ⟨t, ht⟩ := (IterOk.of_list hz.fits' hL).runs.head
    rw [ht] at hc
    simp at hc
  rw [(C85_calls slack degree s c nodes weights (gridArrays_of_grid hg h0 hw hne) fourier false).2]
  exact C26_backward slack s degree nodes weights fourier hz hg hd L hL c hc

/-- The default of `integrate` is undefined behaviour: with all directions of Hermite type the C++ function writes out of range. -/
theorem C85_integrate_default_undefined (f : List ℝ) (nodes weights : List (List ℝ)) (h : GridArrays f nodes weights)
    (hg : Grid nodes (List.replicate nodes.length 0)) :
    Core.integrate 0 (nestVec f) (nestMat nodes) (nestMat weights) none = .ub := by
  rw [(C85_default 0 0 (nestVec f) (nestMat weights) nodes true true "").1,
    (C85_calls 0 0 .cube f nodes weights h _ true).1]
  refine C31_hermite_undefined nodes weights _ hg ?_ f
  have : nodes ≠ [] := by
    rintro rfl
    exact h.2.1 rfl
  have := List.length_pos_iff.2 this
  simp
  omega

/-- The hypotheses are met by a grid with three points. -/
example : GridArrays [1, 2, 3] [[-1, 0, 2]] [[1, 2, 1]] ∧ Grid [[-1, 0, 2]] (List.replicate 1 0) :=
  ⟨⟨by simp, by simp, by simp⟩, ⟨by simp, by simp, by simp, by simp [gridPoints, cartesian]⟩⟩

/-- C85. The variational form from Python, dense or sparse as asked for, with the same entries. -/
theorem C85_varf (slack : ℕ) (s : IndexSet) (degree : ℕ) (nodes weights : List (List ℝ)) (fourier : List ℕ)
    (h : FormOk slack s degree nodes weights fourier) (h0 : ∀ r ∈ nodes, r ≠ []) (L L2 : List (List ℕ))
    (hL : s.s_list nodes.length degree = .ok L) (hL2 : s.s_list nodes.length (2 * degree) = .ok L2) (f : List ℝ) (hne : f ≠ [])
    (hf : f.length = (gridPoints nodes).length) (sparse : Bool) :
    ∃ R, Core.varf slack degree (nestVec f) (nestMat nodes) (nestMat weights) sparse (some fourier) (setName s) = .ok R ∧
      IsArr R L.length L.length (fun i j =>
        ∑ t ∈ Finset.range L2.length, kept (dropTol L2 (fcoef nodes weights fourier f)) (fcoef nodes weights fourier f (L2.getD t [])) *
          tripleProd nodes.length fourier (L2.getD t []) (L.getD i []) (L.getD j [])) ∧
      (IsCsr R ↔ sparse = true) ∧ Canonical R := by
  classical
  have hga := gridArgs_ok (gridArrays_of_grid h.grid h0 h.weights hne)
  rw [Core.varf, doFourier, Out.ok_bind, hga, Out.ok_bind]
  simp only [dispatch_name]
  cases sparse with
  | true =>
    obtain ⟨R, e, hR⟩ := C35_entries_partial (T := SpMat ℝ) slack s degree nodes weights fourier h L L2 hL hL2 f hf
    obtain ⟨A, e', h', hc⟩ := to_csr_isArr hR
    refine ⟨.csr A, ?_, h', by simp [IsCsr], fun B hB => by obtain rfl : A = B := by simpa using hB
                                                            exact hc⟩
    rw [if_pos rfl, e, Out.ok_bind, e', Out.ok_bind]
  | false =>
    obtain ⟨R, e, hR⟩ := C35_entries_partial (T := BMat ℝ) slack s degree nodes weights fourier h L L2 hL hL2 f hf
    obtain ⟨N, e', hN, -⟩ := to_numpy_boost_ok hR
    refine ⟨.mat (ndRows N), ?_, ndRows_isMat hN, by simp [IsCsr], fun B hB => by cases hB⟩
    rw [if_neg (by simp), e, Out.ok_bind, e', Out.ok_bind]

theorem boost_of_rows {m : DMat ℝ} {n : ℕ} {f : ℕ → ℕ → ℝ} (h : IsMat m n n f) (hn : 1 ≤ n) (hw : n * n + n < 2 ^ 32) :
    ∃ B, to_boost_mat (freshArray m.length (m.getD 0 []).length m.flatten) = .ok B ∧ IsMat B n n f := by
  obtain ⟨h1, h2, h3⟩ := h
  have hl : (m.getD 0 []).length = n := by
    have : 0 < m.length := by omega
    rw [List.getD_eq_getElem _ _ this]
    exact h2 _ (List.getElem_mem this)
  rw [hl, h1]
  refine C44_to_boost_mat_partial _ n n n f (holds_fresh fun i j hi hj => ?_) hw (Or.inr rfl)
  have hi' : i < m.length := by omega
  have hj' : j < m[i].length := by rw [h2 _ (List.getElem_mem hi')]; exact hj
  have := h3 i j m[i] m[i][j] (List.getElem?_eq_getElem hi') (List.getElem?_eq_getElem hj')
  rw [flatten_get h2 (List.getElem?_eq_getElem hi') hj, ← this]
  exact List.getElem?_eq_getElem hj'

/-- What the two cases of `varfd` have in common. -/
theorem varfd_any {s : IndexSet} {dim degree d n df : ℕ} {f g : ℕ → ℕ → ℝ} (hn : 1 ≤ n) (A : PyVal) (hA : IsArr A n n f) (hc : Canonical A)
    (hw : IsCsr A ∨ n * n + n < 2 ^ 32)
    (hd : ∀ B : BMat ℝ, IsMat B n n f → ∃ R : BMat ℝ, Hermipy.varfd s dim degree d B df = .ok R ∧ IsMat R n n g)
    (hs : ∀ B : SpMat ℝ, IsMat B n n f → ∃ R : SpMat ℝ, Hermipy.varfd s dim degree d B df = .ok R ∧ IsMat R n n g) :
    ∃ R, Core.varfd dim degree d A df (setName s) = .ok R ∧ IsArr R n n g ∧ (IsCsr R ↔ IsCsr A) ∧ Canonical R := by
  match A, hA, hc, hw with
  | .mat m, hA, _, hw =>
    obtain ⟨B, e1, hB⟩ := boost_of_rows hA hn (hw.resolve_left (by simp [IsCsr]))
    obtain ⟨R, e2, hR⟩ := hd B hB
    obtain ⟨N, e3, hN, -⟩ := to_numpy_boost_ok hR
    refine ⟨.mat (ndRows N), ?_, ndRows_isMat hN, by simp [IsCsr], fun B hB => by cases hB⟩
    rw [Core.varfd, e1, Out.ok_bind]
    simp only [dispatch_name]
    rw [e2, Out.ok_bind, e3, Out.ok_bind]
  | .csr C, ⟨k1, k2, k3, k4⟩, hc, _ =>
    obtain ⟨M, e0, hM⟩ := C43_from_csr_partial C k1 (hc C rfl)
    rw [k2, k3] at hM
    obtain ⟨R, e2, hR⟩ := hs M (LawfulMat.congr hM k4)
    obtain ⟨D, e', h', hc'⟩ := to_csr_isArr hR
    refine ⟨.csr D, ?_, h', by simp [IsCsr], fun B hB => by obtain rfl : D = B := by simpa using hB
                                                            exact hc'⟩
    rw [Core.varfd, e0, Out.ok_bind]
    simp only [dispatch_name]
    rw [e2, Out.ok_bind, e', Out.ok_bind]

/-- C85, partial: the form against derivatives in a Hermite direction from Python; the result is dense or sparse as the argument. Missing:
dense matrices with more than `2 ^ 32` entries, sparse ones with repeated entries. -/
theorem C85_varfd_hermite_partial (s : IndexSet) (dim degree d : ℕ) (hz : Sized s dim degree) (hd : d < dim) (L : List (List ℕ))
    (hL : s.s_list dim degree = .ok L) (A : PyVal) (f : ℕ → ℕ → ℝ) (hA : IsArr A L.length L.length f) (hc : Canonical A)
    (hw : IsCsr A ∨ L.length * L.length + L.length < 2 ^ 32) :
    ∃ R, Core.varfd dim degree d A 0 (setName s) = .ok R ∧ IsArr R L.length L.length (fun i j =>
      if (L.getD j []).getD d 0 = 0 then 0
      else √((L.getD j []).getD d 0 : ℝ) * entry L f (L.getD i []) (lower d (L.getD j []))) ∧ (IsCsr R ↔ IsCsr A) ∧ Canonical R := by
  obtain ⟨t, ht⟩ := (IterOk.of_list hz.fits' hL).runs.head
  exact varfd_any (by rw [ht]; simp) A hA hc hw (fun B hB => C39_entries s dim degree d hz hd L hL B f hB)
    fun B hB => C39_entries s dim degree d hz hd L hL B f hB

/-- C85, partial: the form against derivatives in a Fourier direction from Python. Missing: as for Hermite directions, and the sets that do
not contain with each sine the cosine. -/
theorem C85_varfd_fourier_partial (s : IndexSet) (dim degree d : ℕ) (hz : Sized s dim degree) (hd : d < dim)
    (hp : PairClosed s dim degree d) (L : List (List ℕ)) (hL : s.s_list dim degree = .ok L) (A : PyVal) (f : ℕ → ℕ → ℝ)
    (hA : IsArr A L.length L.length f) (hc : Canonical A) (hw : IsCsr A ∨ L.length * L.length + L.length < 2 ^ 32) :
    ∃ R, Core.varfd dim degree d A 1 (setName s) = .ok R ∧ IsArr R L.length L.length (fun i j =>
      if (L.getD j []).getD d 0 = 0 then 0
      else (signedWave d (L.getD j []) : ℝ) * entry L f (L.getD i []) (partner d (L.getD j []))) ∧ (IsCsr R ↔ IsCsr A) ∧ Canonical R := by
  obtain ⟨t, ht⟩ := (IterOk.of_list hz.fits' hL).runs.head
  exact varfd_any (by rw [ht]; simp) A hA hc hw (fun B hB => C40_entries_partial s dim degree d hz hd hp L hL B f hB)
    fun B hB => C40_entries_partial s dim degree d hz hd hp L hL B f hB

/-- C85. A form and its derivative, computed by two calls from Python with the same name and kind: the entry at `(I, J)` is the quadrature
of `f φ_I ∂_d φ_J`, under the conditions for the form to be exact. -/
theorem C85_chain (slack : ℕ) (s : IndexSet) (degree d : ℕ) (nodes weights : List (List ℝ)) (fourier : List ℕ)
    (h : FormOk slack s degree nodes weights fourier) (hcl : Closed s nodes.length degree fourier) (h0 : ∀ r ∈ nodes, r ≠ [])
    (L L2 : List (List ℕ)) (hL : s.s_list nodes.length degree = .ok L) (hL2 : s.s_list nodes.length (2 * degree) = .ok L2) (f : List ℝ)
    (hne : f ≠ []) (hf : f.length = (gridPoints nodes).length) (hdrop : NoDrop L2 (fcoef nodes weights fourier f))
    (hd : d < nodes.length) (hfd : fourier.getD d 0 ≠ 1) (sparse : Bool) (hw : sparse = true ∨ L.length * L.length + L.length < 2 ^ 32) :
    ∃ A R, Core.varf slack degree (nestVec f) (nestMat nodes) (nestMat weights) sparse (some fourier) (setName s) = .ok A ∧
      Core.varfd nodes.length degree d A 0 (setName s) = .ok R ∧
      IsArr R L.length L.length (fun i j => quadrature nodes weights fun k p =>
        f.getD k 0 * (basis nodes.length fourier (L.getD i []) p * dbasis nodes.length fourier d (L.getD j []) p)) := by
  obtain ⟨A, eA, hA, hk, hc⟩ := C85_varf slack s degree nodes weights fourier h h0 L L2 hL hL2 f hne hf sparse
  have hA' : IsArr A L.length L.length (fun i j => quadrature nodes weights fun k p => f.getD k 0 *
      (basis nodes.length fourier (L.getD i []) p * basis nodes.length fourier (L.getD j []) p)) := by
    obtain ⟨R1, e1, h1⟩ := C35_entries_partial (T := DMat ℝ) slack s degree nodes weights fourier h L L2 hL hL2 f hf
    obtain ⟨R2, e2, h2⟩ := C35_exact (T := DMat ℝ) slack s degree nodes weights fourier h hcl L L2 hL hL2 f hf hdrop
    obtain rfl : R1 = R2 := Out.ok.inj (e1.symm.trans e2)
    have heq : ∀ i j, i < L.length → j < L.length → _ = _ := fun i j hi hj =>
      Out.ok.inj ((LawfulMat.get h1 hi hj).symm.trans (LawfulMat.get h2 hi hj))
    match A, hA with
    | .mat m, hA => exact LawfulMat.congr (M := DMat ℝ) hA heq
    | .csr C, ⟨k1, k2, k3, k4⟩ => exact ⟨k1, k2, k3, fun i j hi hj => (k4 i j hi hj).trans (heq i j hi hj)⟩
  obtain ⟨t, ht⟩ := (IterOk.of_list h.sized.fits' hL).runs.head
  obtain ⟨R, eR, hR, -⟩ := varfd_any (s := s) (dim := nodes.length) (degree := degree) (d := d) (df := 0) (by rw [ht]; simp) A hA' hc
    (hw.imp hk.2 id)
    (fun B hB => C39_form s degree d nodes weights fourier h.sized hd hfd L hL (fun k _ => f.getD k 0) B hB)
    fun B hB => C39_form s degree d nodes weights fourier h.sized hd hfd L hL (fun k _ => f.getD k 0) B hB
  exact ⟨A, R, eA, eR, hR⟩

/-- The hypotheses of `C85_chain` hold, for example, for the triangle on a grid with two Hermite directions. -/
example : FormOk 0 .triangle 3 [[-1, 0, 2], [0, 3]] [[1, 2, 1], [5, 5]] [0, 0] ∧ Closed .triangle 2 3 [0, 0] ∧
    (∀ r ∈ ([[-1, 0, 2], [0, 3]] : List (List ℝ)), r ≠ []) ∧ ([1, 1, 1, 1, 1, 1] : List ℝ).length = (gridPoints [[-1, 0, 2], [0, 3]]).length :=
  ⟨formOk_small (by simp) (by omega) ⟨by simp, by simp, by simp, by simp [gridPoints, cartesian]⟩ ⟨by simp, by simp, by simp⟩ (by simp),
    C35_closed .triangle 2 3 [0, 0] rfl (by simp) (by simp) (Or.inr (Or.inr (Or.inr ⟨rfl, by simp⟩))), by simp,
    by simp [gridPoints, cartesian]⟩

/-! ## Rejected arguments -/

/-- C85. Anything but a vector and two matrices raises, before the name is looked at. -/
theorem C85_rejects (slack degree : ℕ) (fgrid nodes weights : Nest) (df : Option (List ℕ)) (forward sparse : Bool) (name : String)
    (h : ∀ (f : List ℝ) (n w : List (List ℝ)), GridArrays f n w → (fgrid, nodes, weights) ≠ (nestVec f, nestMat n, nestMat w)) :
    Core.integrate slack fgrid nodes weights df = .throws ∧
    Core.transform slack degree fgrid nodes weights forward df name = .throws ∧
    Core.varf slack degree fgrid nodes weights sparse df name = .throws := by
  have hg : gridArgs fgrid nodes weights = .throws := by
    rw [gridArgs]
    rcases to_cpp_array_plain fgrid with ⟨r1, e1⟩ | e1
    · rw [e1, Out.ok_bind]
      rcases to_cpp_array_plain nodes with ⟨r2, e2⟩ | e2
      · rw [e2, Out.ok_bind]
        rcases to_cpp_array_plain weights with ⟨r3, e3⟩ | e3
        · rw [e3, Out.ok_bind]
          split
          · rename_i v n w
            obtain ⟨a1, a2⟩ := ((C84_to_cpp_array fgrid).1 v).1 e1
            obtain ⟨b1, b2⟩ := ((C84_to_cpp_array nodes).2.1 n).1 e2
            obtain ⟨c1, c2⟩ := ((C84_to_cpp_array weights).2.1 w).1 e3
            refine absurd ?_ (h v n w ⟨a1, b1, c1⟩)
            rw [a2, b2, c2]
            rfl
          · rfl
        · rw [e3]; rfl
      · rw [e2]; rfl
    · rw [e1]; rfl
  have hd : (∃ l, doFourier nodes df = .ok l) ∨ doFourier nodes df = .throws := by
    match df, nodes with
    | some l, _ => exact Or.inl ⟨_, rfl⟩
    | none, .seq l => exact Or.inl ⟨_, rfl⟩
    | none, .num _ => exact Or.inr rfl
    | none, .other => exact Or.inr rfl
  rcases hd with ⟨l, e⟩ | e
  · refine ⟨?_, ?_, ?_⟩
    · rw [Core.integrate, e, Out.ok_bind, hg]; rfl
    · rw [Core.transform, e, Out.ok_bind, hg]; rfl
    · rw [Core.varf, e, Out.ok_bind, hg]; rfl
  · refine ⟨?_, ?_, ?_⟩
    · rw [Core.integrate, e]; rfl
    · rw [Core.transform, e]; rfl
    · rw [Core.varf, e]; rfl

/-- For a name that is not one of an index set, transforms and forms terminate the Python process. -/
theorem C85_unknown_exits (name : String) (hname : ∀ s, name ≠ setName s) (slack degree : ℕ) (fourier : List ℕ) (forward sparse : Bool) :
    (∀ f nodes weights, GridArrays f nodes weights →
      Core.transform slack degree (nestVec f) (nestMat nodes) (nestMat weights) forward (some fourier) name = .stop (.exit 1) ∧
      Core.varf slack degree (nestVec f) (nestMat nodes) (nestMat weights) sparse (some fourier) name = .stop (.exit 1)) ∧
    ∀ (A : PyVal) (n dim d df : ℕ) (f : ℕ → ℕ → ℝ), 1 ≤ n → IsArr A n n f → n * n + n < 2 ^ 32 →
      Core.varfd dim degree d A df name = .stop (.exit 1) := by
  refine ⟨fun f nodes weights h => ⟨?_, ?_⟩, ?_⟩
  · rw [Core.transform, doFourier, Out.ok_bind, gridArgs_ok h, Out.ok_bind]
    exact dispatch_unknown hname _
  · rw [Core.varf, doFourier, Out.ok_bind, gridArgs_ok h, Out.ok_bind]
    cases sparse
    · rw [if_neg (by simp), dispatch_unknown hname]; rfl
    · rw [if_pos rfl, dispatch_unknown hname]; rfl
  · intro A n dim d df f hn hA hw
    match A, hA with
    | .mat m, hA =>
      obtain ⟨B, e1, hB⟩ := boost_of_rows hA hn hw
      rw [Core.varfd, e1, Out.ok_bind, dispatch_unknown hname]; rfl
    | .csr C, ⟨k1, _⟩ =>
      obtain ⟨M, e0, -⟩ := to_spmat_csr_ok k1
      have e0' : convert_to_cpp_sparse C = .ok M := e0
      rw [Core.varfd, e0', Out.ok_bind, dispatch_unknown hname]; rfl

end Hermipy.Props
