import Verif.Lemmas.VarfTensorize
import Verif.Lemmas.Arithmetic
import Verif.Lemmas.Count
import Verif.Props.Position
import Mathlib.Tactic.NormNum

/-! # C69: products of variational forms -/

namespace Hermipy.Props
open Hermipy.Spec
variable {F : Type}

theorem matrix_eq_entries {A : HVarf (SFn F)} (h : VarfOk A) {L : List (List ℕ)} (hL : IterOk A.index_set A.position.dim A.degree L)
    (hlen : A.matrix.length = L.length) :
    A.matrix = L.map fun I => L.map fun J => (A.matrix.getD (L.idxOf I) []).getD (L.idxOf J) 0 := by
  have hidx : ∀ i (hi : i < L.length), L.idxOf L[i] = i := fun i hi => idxOf_of_getElem? hL.nodup (by simp [hi])
  apply List.ext_getElem
  · simp [hlen]
  · intro i h1 h2
    have hi : i < L.length := by simpa using h2
    have hrow := h.square _ (List.getElem_mem h1)
    rw [List.getElem_map, hidx i hi]
    apply List.ext_getElem
    · rw [List.length_map]; omega
    · intro j h3 h4
      have hj : j < L.length := by simpa using h4
      rw [List.getElem_map, hidx j hj]
      simp [h1, h3]

theorem value_mulTerms [Interp F] (t u : Multiset (Product F)) (x : ℕ → ℝ) :
    ((mulTerms t u).map fun p => productValue p x).sum = (t.map fun p => productValue p x).sum * (u.map fun p => productValue p x).sum := by
  rw [mulTerms, Multiset.map_bind, Multiset.sum_bind]
  simp only [Multiset.map_map, Function.comp_def, productValue_add]
  rw [← Multiset.sum_map_mul_right]
  congr 1
  apply Multiset.map_congr rfl
  intro p _
  rw [Multiset.sum_map_mul_left]

theorem value_allTerms [Interp F] (As : List (HVarf (SFn F))) (ds : List ℕ) (x : ℕ → ℝ) :
    SFn.value ⟨ds, allTerms As⟩ x = (As.map fun A => A.factor.value x).prod := by
  have key : ∀ (As : List (HVarf (SFn F))) (t : Multiset (Product F)),
      ((As.foldl (fun t b => mulTerms t b.factor.terms) t).map fun p => productValue p x).sum =
      (t.map fun p => productValue p x).sum * (As.map fun A => A.factor.value x).prod := by
    intro As
    induction As with
    | nil => intro t; simp
    | cons A As ih =>
      intro t
      rw [List.foldl_cons, ih, value_mulTerms, List.map_cons, List.prod_cons, mul_assoc]
      rfl
  rw [SFn.value, allTerms]
  simp only
  rw [key]
  simp [productValue]

/-- C69, partial: the product of two or more forms with pairwise disjoint directions (with the same index set and the same degree, and diagonal
covariances). Its directions are those of the arguments in increasing order, with their means, variances and types; its factor is the product of
the factors; and its entry at `(I, J)` is the product of the entries of the arguments at the parts of `I` and `J` in their directions. Missing:
arguments which share directions, see `C69_overlap_false`. -/
theorem C69_tensorize_partial [Interp F] {As : List (HVarf (SFn F))} (h2 : 2 ≤ As.length) {s : IndexSet} {degree : ℕ}
    (hok : ∀ A ∈ As, VarfOk A) (hset : ∀ A ∈ As, A.index_set = s) (hdeg : ∀ A ∈ As, A.degree = degree)
    (hdiag : ∀ A ∈ As, A.position.is_diag) (hsort : ∀ A ∈ As, A.position.dirs.Pairwise (· < ·))
    (hdisj : (As.map fun A => A.position.dirs).flatten.Nodup)
    (hu : ∀ k, 1 ≤ k → k ≤ (As.map fun A => A.position.dim).sum → Usable s k degree)
    (hfac : ∀ A ∈ As, SFnOk A.factor ∧ A.factor.dirs = A.position.dirs) (sparse : Bool) :
    ∃ R, varf_tensorize sparse As = .ok R ∧ VarfOk R ∧ R.is_sparse = sparse ∧ R.index_set = s ∧ SameSets s R.degree degree ∧
      Diagonal R.position ∧ R.position.dirs.Pairwise (· < ·) ∧ (∀ d x, Has R.position d x ↔ ∃ A ∈ As, Has A.position d x) ∧
      (∀ x, R.factor.value x = (As.map fun A => A.factor.value x).prod) ∧
      ∀ I J, InSet s R.position.dim degree I → InSet s R.position.dim degree J → ∃ c : HVarf (SFn F) → ℝ,
        (∀ A ∈ As, Entry A (A.position.dirs.map (at' R.position.dirs I)) (A.position.dirs.map (at' R.position.dirs J)) (c A)) ∧
        Entry R I J (As.map c).prod := by
  let D := (As.map fun A => A.position.dirs).flatten.toFinset.sort (· ≤ ·)
  have hD : D.Pairwise (· < ·) := sorted_sort _
  have hperm : (As.map fun A => A.position.dirs).flatten.Perm D := by
    rw [List.perm_ext_iff_of_nodup hdisj (Finset.sort_nodup _ _)]
    intro d
    simp only [D, Finset.mem_sort, List.mem_toFinset]
  have hDl : D.length = (As.map fun A => A.position.dim).sum := by
    rw [← hperm.length_eq, List.length_flatten, List.map_map]
    congr 1
    apply List.map_congr_left
    intro A hA
    exact (hok A hA).pos.dirs
  have hD1 : 1 ≤ D.length := by
    obtain ⟨A, hA⟩ := List.exists_mem_of_length_pos (by omega : 0 < As.length)
    obtain ⟨d, hd⟩ := List.exists_mem_of_ne_nil _ (hok A hA).dirs
    exact List.length_pos_of_mem (hperm.mem_iff.1 (List.mem_flatten.2 ⟨_, List.mem_map.2 ⟨A, hA, rfl⟩, hd⟩))
  have huD : Usable s D.length degree := hu _ hD1 hDl.le
  have hLs : ∀ A : HVarf (SFn F), ∃ L, A ∈ As → IterOk s A.position.dim degree L ∧ A.matrix.length = L.length := by
    intro A
    by_cases hA : A ∈ As
    · obtain ⟨L, h1, h2⟩ := (hok A hA).list
      rw [hset A hA, hdeg A hA] at h1
      exact ⟨L, fun _ => ⟨h1, h2⟩⟩
    · exact ⟨[], fun h => absurd h hA⟩
  choose Ls hLs using hLs
  obtain ⟨L, hL⟩ := iterOk_exists huD.toSized.fits'
  let G : HVarf (SFn F) → List ℕ → List ℕ → ℝ := fun A I J => (A.matrix.getD ((Ls A).idxOf I) []).getD ((Ls A).idxOf J) 0
  obtain ⟨P, -, okP, dgP, dirsP, hasP, e⟩ := varf_tensorize_ok (xs := As) (A := fun A => A) h2 hset hdeg (fun A hA => (hok A hA).pos) hdiag hsort
    (fun A hA => (hok A hA).dirs) hD hperm huD.toSized (fun k h1 h2 => hu k h1 (by omega)) (Ls := Ls) (fun A hA => (hLs A hA).1) (G := G)
    (fun A hA => matrix_eq_entries (hok A hA) (by rw [hset A hA, hdeg A hA]; exact (hLs A hA).1) (hLs A hA).2)
    (by
      intro A hA p hp v hv
      obtain ⟨f, hf, hvf⟩ := hv
      rw [← (hfac A hA).2]
      exact (hfac A hA).1.vars p hp f hf v hvf) hL sparse
  have hPdim : P.dim = D.length := by rw [← okP.dirs, dirsP]
  have hPne : P.dirs ≠ [] := by rw [dirsP, ← List.length_pos_iff]; exact hD1
  rw [← hPdim] at hL huD
  obtain ⟨R, eR, okR, r1, r2, r3, r4, r5, r6, r7⟩ := mkVarf_ok (b := sparse) (factor := (⟨D, allTerms As⟩ : SFn F)) okP hPne huD hL
    (M := L.map fun I => L.map fun J => (As.map fun A => G A (A.position.dirs.map (at' D I)) (A.position.dirs.map (at' D J))).prod) (by simp)
    (by intro r hr; obtain ⟨I, -, rfl⟩ := List.mem_map.1 hr; simp)
  have e' : varf_tensorize sparse As = .ok R := by
    rw [List.map_id'] at e
    rw [e, eR]
  refine ⟨R, e', okR, r1, r5, r7, by rw [r3]; exact dgP, by rw [r3, dirsP]; exact hD, by rw [r3]; exact hasP, ?_, ?_⟩
  · intro x
    rw [r4, value_allTerms]
  · intro I J hI hJ
    rw [r3] at hI hJ
    rw [r3, dirsP]
    refine ⟨fun A => G A (A.position.dirs.map (at' D I)) (A.position.dirs.map (at' D J)), ?_, ?_⟩
    · intro A hA
      have hsub : ∀ d ∈ A.position.dirs, d ∈ D := fun d hd =>
        hperm.mem_iff.1 (List.mem_flatten.2 ⟨_, List.mem_map.2 ⟨A, hA, rfl⟩, hd⟩)
      have hin : ∀ I, InSet s P.dim degree I → A.position.dirs.map (at' D I) ∈ Ls A := by
        intro I hI
        rw [hPdim] at hI
        have := inSet_along hD (hsort A hA) (hok A hA).dirs hsub hI
        rw [(hok A hA).pos.dirs] at this
        exact ((hLs A hA).1.mem _).2 this
      have hmI := hin I hI
      have hmJ := hin J hJ
      have hlen := (hLs A hA).2
      have hi := List.idxOf_lt_length_iff.2 hmI
      have hj := List.idxOf_lt_length_iff.2 hmJ
      have hrow := (hok A hA).square _ (List.getElem_mem (hlen.symm ▸ hi))
      refine ⟨Ls A, _, _, A.matrix.getD ((Ls A).idxOf (A.position.dirs.map (at' D I))) [], ?_, getElem?_idxOf' hmI, getElem?_idxOf' hmJ, ?_, ?_⟩
      · rw [hset A hA, hdeg A hA]
        exact (hLs A hA).1.list
      · simp [hlen.symm ▸ hi]
      · have h5 : (A.matrix.getD ((Ls A).idxOf (A.position.dirs.map (at' D I))) []).length = (Ls A).length := by
          rw [List.getD_eq_getElem?_getD, List.getElem?_eq_getElem (hlen.symm ▸ hi), Option.getD_some, hrow, hlen]
        simp only [G]
        rw [List.getElem?_eq_getElem (by rw [h5]; exact hj), List.getD_eq_getElem?_getD (l := List.getD _ _ _), List.getElem?_eq_getElem (by rw [h5]; exact hj)]
        rfl
    · have hmI := (hL.mem I).2 hI
      have hmJ := (hL.mem J).2 hJ
      refine ⟨L, L.idxOf I, L.idxOf J, L.map fun J => (As.map fun A => G A (A.position.dirs.map (at' D I)) (A.position.dirs.map (at' D J))).prod, ?_,
        getElem?_idxOf' hmI, getElem?_idxOf' hmJ, ?_, ?_⟩
      · rw [r5, r3]
        exact r6.list
      · rw [r2, List.getElem?_map, getElem?_idxOf' hmI]
        rfl
      · rw [List.getElem?_map, getElem?_idxOf' hmJ]
        rfl

/-- C69: a single form is returned as it is, whatever its directions; its matrix is not converted to the storage asked for. There is no
product of no forms. -/
theorem C69_single (sparse : Bool) (A : HVarf (SFn F)) :
    varf_tensorize sparse [A] = .ok A ∧ varf_tensorize sparse ([] : List (HVarf (SFn F))) = .throws := ⟨rfl, rfl⟩

/-- C69: forms with different index sets or degrees are refused. -/
theorem C69_refused (sparse : Bool) (A : HVarf (SFn F)) (As : List (HVarf (SFn F)))
    (h : ∃ B ∈ As, ¬ B.index_set = A.index_set ∨ ¬ B.degree = A.degree) : varf_tensorize sparse (A :: As) = .throws := by
  obtain ⟨B, hB, hne⟩ := h
  cases As with
  | nil => simp at hB
  | cons C Cs =>
    rw [varf_tensorize, if_pos ⟨B, by simp [hB], hne⟩]
    simp

/-- `Varf.project` raises for any directions: it looks for an attribute that forms do not have. -/
theorem C69_project_false [DecidableEq F] (A : HVarf (SFn F)) (ds : List ℕ) (h : ds ≠ []) : varf_project A ds = .throws := by
  cases ds with
  | nil => exact absurd rfl h
  | cons d ds => rfl

/-! ## Examples and shared directions -/

/-- `a` times the identity, in one direction and with degree 1. -/
noncomputable def oneForm (a : ℝ) (d : ℕ) : HVarf (SFn F) :=
  ⟨false, [[a, 0], [0, a]], ⟨1, [d], [0], [[1]], ["hermite"]⟩, 1, ⟨[d], {0}⟩, .triangle⟩

theorem onePos_ok (d : ℕ) : PosOk ⟨1, [d], [0], [[1]], ["hermite"]⟩ := ⟨rfl, rfl, rfl, by simp, rfl, by simp⟩

theorem onePos_diag (d : ℕ) : Diagonal ⟨1, [d], [0], [[1]], ["hermite"]⟩ := by
  intro i j r c hij hr hc
  match i, j, hij with
  | 0, 0, h => exact absurd rfl h
  | 0, j + 1, _ => simp at hr; subst hr; simp at hc
  | i + 1, _, _ => simp at hr

theorem oneForm_ok (a : ℝ) (d : ℕ) : VarfOk (oneForm a d : HVarf (SFn F)) := by
  have hu := usable_small .triangle (dim := 1) (degree := 1) le_rfl (by simp) (by simp)
  obtain ⟨L, hL⟩ := iterOk_exists hu.toSized.fits'
  exact ⟨onePos_ok d, by simp [oneForm], hu,
    mkVarf_small (d := 1) (L := L) (usable_small _ le_rfl (by simp [oneForm]) (by simp)) hL (by rw [hL.length_triangle]; rfl), by simp [oneForm]⟩

/-- The hypotheses of `C69_tensorize_partial` hold for forms in two directions. -/
example [Interp F] (a b : ℝ) : ∃ R : HVarf (SFn F), varf_tensorize true [oneForm a 3, oneForm b 0] = .ok R ∧ R.position.dirs.Pairwise (· < ·) ∧ VarfOk R := by
  obtain ⟨R, e, ok, -, -, -, -, hs, -⟩ := C69_tensorize_partial (F := F) (As := [oneForm a 3, oneForm b 0]) (s := .triangle) (degree := 1) (by simp)
    (by simp [oneForm_ok]) (by simp [oneForm]) (by simp [oneForm])
    (by simpa [oneForm] using ⟨(onePos_diag 3).is_diag, (onePos_diag 0).is_diag⟩) (by simp [oneForm]) (by simp [oneForm])
    (fun k h1 h2 => usable_small _ h1 (by simp [oneForm] at h2; omega) (by simp))
    (by simp [oneForm]; exact ⟨⟨by simp, by simp⟩, ⟨by simp, by simp⟩⟩) true
  exact ⟨R, e, hs, ok⟩

/-- The form in the direction 3, stored densely, comes back so although a sparse matrix is asked for. -/
example : ∃ R : HVarf (SFn F), varf_tensorize true [oneForm 5 3] = .ok R ∧ R.is_sparse = false ∧ R.position.dirs = [3] :=
  ⟨_, (C69_single true (oneForm 5 3)).1, rfl, rfl⟩

/-- C69 fails for forms which share directions: nothing is checked, the first form of two with the same directions does not matter, the
shared direction disappears, and the matrix is taken for one of another degree. -/
theorem C69_overlap_false (sparse : Bool) : ∃ R : HVarf (SFn F), R.position.dirs = [1] ∧ R.degree = 2 ∧
    ∀ a, VarfOk (oneForm a 0 : HVarf (SFn F)) ∧ varf_tensorize sparse [oneForm a 0, oneForm 1 0, oneForm 1 1] = .ok R := by
  obtain ⟨L1, hL1⟩ := iterOk_exists (usable_small .triangle (dim := 1) (degree := 1) le_rfl (by simp) (by simp)).toSized.fits'
  obtain ⟨L2, hL2⟩ := iterOk_exists (usable_small .triangle (dim := 2) (degree := 1) (by simp) (by simp) (by simp)).toSized.fits'
  obtain ⟨L3, hL3⟩ := iterOk_exists (usable_small .triangle (dim := 1) (degree := 2) (by simp) (by simp) (by simp)).toSized.fits'
  have hz := (usable_small .triangle (dim := 2) (degree := 1) (by simp) (by simp) (by simp)).toSized
  have hl1 : L1.length = 2 := by rw [hL1.length_triangle]; rfl
  have hl2 : L2.length = 3 := by rw [hL2.length_triangle]; rfl
  have hl3 : L3.length = 3 := by rw [hL3.length_triangle]; rfl
  have hm := matrix_eq_entries (oneForm_ok (F := F) 1 0) hL1 (by rw [hl1]; rfl)
  let G : ℕ → List ℕ → List ℕ → ℝ := fun _ I J => (([[1, 0], [0, 1]] : List (List ℝ)).getD (L1.idxOf I) []).getD (L1.idxOf J) 0
  have hc := core_tensorize_ok (ι := ℕ) (s := .triangle) (degree := 1) (D := [0, 1]) (by simp) hz
    (fun k h1 h2 => usable_small _ h1 (by simp at h2; omega) (by simp)) (ms := [0, 1]) (ds := fun d => [d]) (mat := fun _ => [[1, 0], [0, 1]])
    (by simp) (by simp) (Ls := fun _ => L1) (fun _ _ => hL1) (G := G) (fun _ _ => hm) hL2 sparse
  obtain ⟨P, eP, okP, hd, -, -⟩ := C52_tensorize_partial
    [⟨1, [0], [0], [[1]], ["hermite"]⟩, ⟨1, [0], [0], [[1]], ["hermite"]⟩, ⟨1, [1], [0], [[1]], ["hermite"]⟩] (by simp)
    (by simp [onePos_ok]) (by simpa using ⟨(onePos_diag 0).is_diag, (onePos_diag 1).is_diag⟩)
    (by intro d; rcases d with _ | _ | d <;> simp [holders])
    (by
      intro d p q h
      rcases d with _ | _ | d <;> simp [holders] at h
      obtain ⟨rfl, rfl⟩ := h
      intro x y hx hy
      rw [hx.unique (onePos_ok 0) hy]
      exact ⟨rfl, rfl⟩)
  have hPd : P.dirs = [1] := by
    have hn := okP.nodup
    have hm : ∀ d, d ∈ P.dirs ↔ d ∈ [1] := by
      intro d
      rw [hd]
      rcases d with _ | _ | d <;> simp [holders]
    have := (List.perm_ext_iff_of_nodup hn (by simp)).2 hm
    simpa using this
  have hPdim : P.dim = 1 := by rw [← okP.dirs, hPd]; rfl
  rw [← hPdim] at hL3
  have hrec : recDegree .triangle 2 = 2 := rfl
  suffices h : ∀ a, varf_tensorize sparse ([oneForm a 0, oneForm 1 0, oneForm 1 1] : List (HVarf (SFn F))) = .ok ⟨sparse, L2.map fun I => L2.map fun J =>
      (([0, 1] : List ℕ).map fun m => G m ([m].map (at' [0, 1] I)) ([m].map (at' [0, 1] J))).prod, P, 2, ⟨P.dirs, {0}⟩, .triangle⟩ from
    ⟨_, hPd, rfl, fun a => ⟨oneForm_ok a 0, h a⟩⟩
  intro a
  · rw [varf_tensorize, if_neg (by simp [oneForm])]
    · have e1 : ([oneForm a 0, oneForm 1 0, oneForm 1 1] : List (HVarf (SFn F))).foldl
          (fun m b => matsSet (b.position.dirs.toFinset.sort (· ≤ ·)) b.matrix m) [] =
          ([0, 1] : List ℕ).map fun d => ([d], ([[1, 0], [0, 1]] : List (List ℝ))) := by
        simp [oneForm, matsSet]
      have e2 : ([oneForm a 0, oneForm 1 0, oneForm 1 1] : List (HVarf (SFn F))).foldl (fun t b => mulTerms t b.factor.terms) {0} = {0} := by
        simp [oneForm, mulTerms]
      have e3 : pos_tensorize (([oneForm a 0, oneForm 1 0, oneForm 1 1] : List (HVarf (SFn F))).map HVarf.position) = .ok P := eP
      dsimp only
      rw [show (oneForm a 0 : HVarf (SFn F)).index_set = .triangle from rfl, e1, hc, Out.ok_bind, e3, Out.ok_bind, if_neg (by
        rw [e2]
        rintro (h | ⟨p, hp, x, hx, -⟩)
        · rw [hPd] at h; simp [isSorted] at h
        · rw [Multiset.mem_singleton] at hp
          subst hp
          obtain ⟨f, hf, -⟩ := hx
          simp at hf), e2, mkVarf_small (d := 2) (usable_small _ (by omega) (by omega) (by simp)) hL3 (by simp [hl2, hl3]), hrec]
    · simp

end Hermipy.Props
