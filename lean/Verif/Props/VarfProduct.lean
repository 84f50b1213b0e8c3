import Verif.Props.Varf
import Verif.Props.Blocks
import Verif.Lemmas.GridBlocks

/-!
# Property C37: the variational form of a product of functions of blocks of directions
-/

namespace Hermipy.Props

open Hermipy.Spec

variable {S T : Type} [Meaning S ℝ] [Convert (SpMat ℝ) S] [LawfulConvert (SpMat ℝ) S ℝ] [MatOps S ℝ] [LawfulMat S ℝ]
  [MatArith S ℝ] [LawfulArith S ℝ] [Convert S (SpMat ℝ)] [LawfulConvert S (SpMat ℝ) ℝ]
  [Meaning T ℝ] [Convert (SpMat ℝ) T] [LawfulConvert (SpMat ℝ) T ℝ] [MatOps T ℝ] [LawfulMat T ℝ]
  [MatArith T ℝ] [LawfulArith T ℝ]

/-- C37, partial: the variational form of a product of functions of blocks of directions has the same entries as the tensor product
of the variational forms of the factors, when products of basis functions are represented exactly and no coefficient is dropped,
for the product and for the factors. Missing: the other sets, for which this is false, see `C37_false`. -/
theorem C37_varf_product_partial (slack : Nat) (s : IndexSet) (degree : Nat) (nodes weights : List (List ℝ)) (fourier : List Nat)
    (h : FormOk slack s degree nodes weights fourier) (hcl : Closed s nodes.length degree fourier)
    (blocks : List (List Nat)) (hp : Partition nodes.length blocks)
    (hb : ∀ b ∈ blocks, FormOk slack s degree (sub [] b nodes) (sub [] b weights) (sub 0 b fourier))
    (hbcl : ∀ b ∈ blocks, Closed s b.length degree (sub 0 b fourier)) (F : Nat → List ℝ → ℝ) (L : List (List Nat))
    (hL : s.s_list nodes.length degree = .ok L)
    (hdrop : ∀ L2, s.s_list nodes.length (2 * degree) = .ok L2 → NoDrop L2 (fcoef nodes weights fourier
      ((gridPoints nodes).map fun p => ∏ b ∈ Finset.range blocks.length, F b (sub 0 (blocks.getD b []) p))))
    (hbdrop : ∀ b < blocks.length, ∀ L2, s.s_list (blocks.getD b []).length (2 * degree) = .ok L2 →
      NoDrop L2 (fcoef (sub [] (blocks.getD b []) nodes) (sub [] (blocks.getD b []) weights) (sub 0 (blocks.getD b []) fourier)
        ((gridPoints (sub [] (blocks.getD b []) nodes)).map (F b)))) :
    ∃ (Ms : Nat → S) (R R' : T) (g : Nat → Nat → ℝ),
      (∀ b < blocks.length, varf slack s degree ((gridPoints (sub [] (blocks.getD b []) nodes)).map (F b))
        (sub [] (blocks.getD b []) nodes) (sub [] (blocks.getD b []) weights) (sub 0 (blocks.getD b []) fourier) = .ok (Ms b)) ∧
      tensorize_mats_dirs (α := ℝ) s ((List.range blocks.length).map Ms) blocks = .ok R ∧
      varf slack s degree
        ((gridPoints nodes).map fun p => ∏ b ∈ Finset.range blocks.length, F b (sub 0 (blocks.getD b []) p))
        nodes weights fourier = .ok R' ∧
      IsMat R L.length L.length g ∧ IsMat R' L.length L.length g := by
  have hget : ∀ b < blocks.length, blocks.getD b [] ∈ blocks := fun b hb => by simp [hb]
  have hlt : ∀ b < blocks.length, ∀ k ∈ blocks.getD b [], k < nodes.length := fun b hb k hk => hp.mem_lt (hget b hb) hk
  have hok := IterOk.of_list h.sized.fits' hL
  have hblk : ∀ b, ∃ (M : S) (Lb : List (List Nat)), b < blocks.length →
      varf slack s degree ((gridPoints (sub [] (blocks.getD b []) nodes)).map (F b))
        (sub [] (blocks.getD b []) nodes) (sub [] (blocks.getD b []) weights) (sub 0 (blocks.getD b []) fourier) = .ok M ∧
      IterOk s (blocks.getD b []).length degree Lb ∧ IsMat M Lb.length Lb.length (fun i j =>
        quadrature (sub [] (blocks.getD b []) nodes) (sub [] (blocks.getD b []) weights) fun _ q => F b q *
          (basis (blocks.getD b []).length (sub 0 (blocks.getD b []) fourier) (Lb.getD i []) q *
            basis (blocks.getD b []).length (sub 0 (blocks.getD b []) fourier) (Lb.getD j []) q)) := by
    intro b
    by_cases hbl : b < blocks.length
    · have hF := hb _ (hget b hbl)
      have hlen : (sub [] (blocks.getD b []) nodes).length = (blocks.getD b []).length := sub_length _ _ _
      obtain ⟨Lb, hLb⟩ := list_exists s hF.sized
      obtain ⟨L2, hL2⟩ := list_exists s hF.sized2
      obtain ⟨M, e, hM⟩ := C35_exact (T := S) slack s degree _ _ _ hF (by rw [hlen]; exact hbcl _ (hget b hbl)) Lb L2 hLb hL2
        ((gridPoints (sub [] (blocks.getD b []) nodes)).map (F b)) (by simp) (hbdrop b hbl L2 (by rw [← hlen]; exact hL2))
      refine ⟨M, Lb, fun _ => ⟨e, by rw [← hlen]; exact IterOk.of_list hF.sized.fits' hLb, LawfulMat.congr hM fun i j _ _ => ?_⟩⟩
      apply quadrature_congr
      intro i p hi
      rw [hlen, List.getD_eq_getElem?_getD, List.getElem?_map, hi]
      rfl
    · exact ⟨MatOps.construct (α := ℝ) 0 0, [], fun h => absurd h hbl⟩
  choose Ms LB hMs using hblk
  obtain ⟨L2, hL2⟩ := list_exists s h.sized2
  obtain ⟨R', e', hR'⟩ := C35_exact (T := T) slack s degree nodes weights fourier h hcl L L2 hL hL2
    ((gridPoints nodes).map fun p => ∏ b ∈ Finset.range blocks.length, F b (sub 0 (blocks.getD b []) p)) (by simp) (hdrop L2 hL2)
  let fn : Nat → Nat → Nat → ℝ := fun b i j =>
    quadrature (sub [] (blocks.getD b []) nodes) (sub [] (blocks.getD b []) weights) fun _ q => F b q *
      (basis (blocks.getD b []).length (sub 0 (blocks.getD b []) fourier) ((LB b).getD i []) q *
        basis (blocks.getD b []).length (sub 0 (blocks.getD b []) fourier) ((LB b).getD j []) q)
  let bs : List (S × MBlock ℝ) := (List.range blocks.length).map fun b => (Ms b, ⟨blocks.getD b [], LB b, fn b⟩)
  have hdirs : bs.map (·.2.dirs) = blocks := by
    apply List.ext_getElem
    · simp [bs]
    · intro i h1 h2
      simp [bs, h2]
  have hmats : bs.map (·.1) = (List.range blocks.length).map Ms := by simp [bs]
  obtain ⟨R, e, hR⟩ := C18_tensorize_mats (S := S) (T := T) s nodes.length degree h.sized h.usable bs (by rw [hdirs]; exact hp)
    (by
      intro b hbb
      obtain ⟨i, hi, rfl⟩ := List.mem_map.1 hbb
      obtain ⟨-, h2, h3⟩ := hMs i (List.mem_range.1 hi)
      exact ⟨h2.list, h3⟩) L hL
  rw [hdirs, hmats] at e
  refine ⟨Ms, R, R', _, fun b hbl => (hMs b hbl).1, e, e', hR, LawfulMat.congr hR' fun i j hi hj => ?_⟩
  have mi : InSet s nodes.length degree (L.getD i []) := (hok.mem _).1 (by simp [hi])
  have mj : InSet s nodes.length degree (L.getD j []) := (hok.mem _).1 (by simp [hj])
  have e1 : quadrature nodes weights (fun k p => ((gridPoints nodes).map fun p => ∏ b ∈ Finset.range blocks.length,
      F b (sub 0 (blocks.getD b []) p)).getD k 0 * (basis nodes.length fourier (L.getD i []) p *
        basis nodes.length fourier (L.getD j []) p)) =
      quadrature nodes weights (fun _ p => ∏ b ∈ Finset.range blocks.length, (fun b q => F b q *
        (basis (blocks.getD b []).length (sub 0 (blocks.getD b []) fourier) (restrict (blocks.getD b []) (L.getD i [])) q *
          basis (blocks.getD b []).length (sub 0 (blocks.getD b []) fourier) (restrict (blocks.getD b []) (L.getD j [])) q)) b
        (sub 0 (blocks.getD b []) p)) := by
    apply quadrature_congr
    intro k p hk
    rw [List.getD_eq_getElem?_getD, List.getElem?_map, hk, Option.map_some, Option.getD_some, basis_blocks hp, basis_blocks hp,
      ← Finset.prod_mul_distrib, ← Finset.prod_mul_distrib]
  rw [e1, quadrature_blocks h.weights hp (fun b q => F b q *
        (basis (blocks.getD b []).length (sub 0 (blocks.getD b []) fourier) (restrict (blocks.getD b []) (L.getD i [])) q *
          basis (blocks.getD b []).length (sub 0 (blocks.getD b []) fourier) (restrict (blocks.getD b []) (L.getD j [])) q)),
    Finset.prod_range, ← List.prod_ofFn]
  congr 1
  apply List.ext_getElem
  · simp [bs]
  · intro b h1 h2
    have hbl : b < blocks.length := by simpa using h1
    simp only [List.getElem_ofFn, List.getElem_map, bs, List.getElem_range, MBlock.entry]
    have hbm := hget b hbl
    have hok' := (hMs b hbl).2.1
    have hD := C15_increasing_dirs s _ _ (hp.inc _ hbm).1 (hp.inc _ hbm).2 (hlt b hbl)
    have ri := (hok'.mem _).2 (inSet_restrict hD mi)
    have rj := (hok'.mem _).2 (inSet_restrict hD mj)
    rw [entry, if_pos ⟨ri, rj⟩]
    simp only [fn]
    rw [List.getD_eq_getElem?_getD (l := LB b), List.getElem?_eq_getElem (List.idxOf_lt_length_iff.2 ri), List.getElem_idxOf,
      List.getD_eq_getElem?_getD (l := LB b), List.getElem?_eq_getElem (List.idxOf_lt_length_iff.2 rj), List.getElem_idxOf]
    rfl

theorem formOk_origin_line (s : IndexSet) : FormOk 0 s 2 [[0]] [[1]] [1] := formOk_small (by simp) (by omega)
  ⟨by simp, by simp, by simp, by simp [gridPoints, cartesian]⟩ ⟨by simp, by simp, by simp⟩ (by simp)

theorem formOk_origin (s : IndexSet) : FormOk 0 s 2 [[0], [0]] [[1], [1]] [1, 1] := formOk_small (by simp) (by omega)
  ⟨by simp, by simp, by simp, by simp [gridPoints, cartesian]⟩ ⟨by simp, by simp, by simp⟩ (by simp)

/-- The hypotheses of the exact case hold for one Fourier direction, a single node at the origin and `f = 1`: coefficients are zero
or of order one. -/
theorem noDrop_origin_line (s : IndexSet) (L2 : List (List Nat)) (hL2 : s.s_list 1 4 = .ok L2) :
    NoDrop L2 (fcoef [[0]] [[1]] [1] [1]) := by
  have ok2 := IterOk.of_list (formOk_origin_line s).sized2.fits' hL2
  have hline := ok2.line (by simp)
  have hc : ∀ m, fcoef [[0]] [[1]] [1] [1] m = trig (m.getD 0 0) 0 := by
    intro m
    simp [fcoef, quadrature, gridPoints, gridWeights, cartesian, basis, phi]
  intro m _
  rw [hc]
  rcases trig_origin (m.getD 0 0) with h | h
  · exact .inl h
  · refine .inr ((dropTol_le (fun m _ => ?_) ?_).trans ?_)
    · rw [hc]; exact abs_trig_le _ _
    · rw [hline]; simp
    · refine le_trans ?_ h
      norm_num

theorem noDrop_origin (L2 : List (List Nat)) (hL2 : IndexSet.cube.s_list 2 4 = .ok L2) :
    NoDrop L2 (fcoef [[0], [0]] [[1], [1]] [1, 1] [1]) := by
  have ok2 := IterOk.of_list (formOk_origin .cube).sized2.fits' hL2
  have hc : ∀ m, fcoef [[0], [0]] [[1], [1]] [1, 1] [1] m = trig (m.getD 0 0) 0 * trig (m.getD 1 0) 0 := by
    intro m
    rw [fcoef, quadrature_point]
    simp [basis_two, phi]
  intro m _
  rw [hc]
  rcases trig_origin (m.getD 0 0) with h | h
  · exact .inl (by rw [h, zero_mul])
  · rcases trig_origin (m.getD 1 0) with h' | h'
    · exact .inl (by rw [h', mul_zero])
    · refine .inr ((dropTol_le (fun m _ => ?_) (small_listing ok2)).trans ?_)
      · rw [hc, abs_mul]
        exact mul_le_one₀ (abs_trig_le _ _) (abs_nonneg _) (abs_trig_le _ _)
      · rw [abs_mul]
        calc (1 : ℝ) / 10 ^ 10 = 1 / 10 ^ 5 * (1 / 10 ^ 5) := by norm_num
          _ ≤ _ := mul_le_mul h h' (by positivity) (abs_nonneg _)

/-- All hypotheses of `C37_varf_product_partial` hold for the cube with two Fourier directions. -/
example : ∃ L, IndexSet.cube.s_list 2 2 = .ok L ∧ ∃ (Ms : Nat → DMat ℝ) (R R' : SpMat ℝ) (g : Nat → Nat → ℝ),
    tensorize_mats_dirs (α := ℝ) .cube ((List.range 2).map Ms) [[0], [1]] = .ok R ∧
      varf 0 .cube 2 [1] [[0], [0]] [[1], [1]] [1, 1] = .ok R' ∧ IsMat R L.length L.length g ∧ IsMat R' L.length L.length g := by
  obtain ⟨L, hL⟩ := list_exists _ (formOk_origin .cube).sized
  have hp : ((gridPoints ([[0], [0]] : List (List ℝ))).map fun _ => ∏ b ∈ Finset.range ([[0], [1]] : List (List Nat)).length, (1 : ℝ)) =
      [1] := by
    simp [gridPoints, cartesian]
  have h1 : ∀ b < 2, sub ([] : List ℝ) (([[0], [1]] : List (List Nat)).getD b []) [[0], [0]] = [[0]] ∧
      sub ([] : List ℝ) (([[0], [1]] : List (List Nat)).getD b []) [[1], [1]] = [[1]] ∧
      sub 0 (([[0], [1]] : List (List Nat)).getD b []) [1, 1] = [1] ∧
      (([[0], [1]] : List (List Nat)).getD b []).length = 1 := by
    intro b hb
    have : b = 0 ∨ b = 1 := by omega
    rcases this with rfl | rfl <;> simp [sub]
  have h2 : ∀ b ∈ [[0], [1]], sub ([] : List ℝ) b [[0], [0]] = [[0]] ∧ sub ([] : List ℝ) b [[1], [1]] = [[1]] ∧
      sub 0 b [1, 1] = [1] ∧ b.length = 1 := by
    intro b hb
    obtain ⟨i, hi, rfl⟩ := List.mem_iff_getElem.1 hb
    have := h1 i hi
    rw [List.getD_eq_getElem?_getD, List.getElem?_eq_getElem hi] at this
    exact this
  obtain ⟨Ms, R, R', g, -, e1, e2, e3, e4⟩ := C37_varf_product_partial (S := DMat ℝ) (T := SpMat ℝ) 0 .cube 2 [[0], [0]]
    [[1], [1]] [1, 1] (formOk_origin .cube) (C35_closed _ _ _ _ rfl (by simp) (by simp) (by simp)) [[0], [1]]
    ⟨by simp, by decide⟩ (fun b hb => by
      obtain ⟨a1, a2, a3, -⟩ := h2 b hb
      rw [a1, a2, a3]; exact formOk_origin_line _)
    (fun b hb => by
      obtain ⟨-, -, a3, a4⟩ := h2 b hb
      rw [a3, a4]; exact C35_closed _ _ _ _ rfl (by simp) (by simp) (by simp)) (fun _ _ => 1) L hL
    (fun L2 hL2 => by
      have := noDrop_origin L2 hL2
      rw [hp]
      exact this)
    (fun b hb L2 hL2 => by
      obtain ⟨a1, a2, a3, a4⟩ := h1 b hb
      rw [a4] at hL2
      rw [a1, a2, a3]
      have := noDrop_origin_line _ L2 hL2
      simpa [gridPoints, cartesian] using this)
  rw [hp] at e2
  exact ⟨L, hL, Ms, R, R', g, e1, e2, e3, e4⟩

/-- C37 is false for every index set but the cube: with two Fourier directions, degree 2, one node at the origin, weight 1 and
`f = 1`, the variational form and the tensor product of the forms of the directions differ on the diagonal. -/
theorem C37_false (s : IndexSet) (hs : s ≠ .cube) :
    ∃ (M : S) (R R' : T) (g g' : Nat → Nat → ℝ) (i : Nat) (L : List (List Nat)), s.s_list 2 2 = .ok L ∧
      varf 0 s 2 [1] [[0]] [[1]] [1] = .ok M ∧ tensorize_mats_dirs (α := ℝ) s [M, M] [[0], [1]] = .ok R ∧
      varf 0 s 2 [1] [[0], [0]] [[1], [1]] [1, 1] = .ok R' ∧ IsMat R L.length L.length g ∧ IsMat R' L.length L.length g' ∧
      i < L.length ∧ g i i ≠ g' i i := by
  obtain ⟨R', g', i, L, hL, e', hR', hi, hne, hq⟩ : ∃ (R' : T) (g' : Nat → Nat → ℝ) (i : Nat) (L : List (List Nat)),
      s.s_list 2 2 = .ok L ∧ varf 0 s 2 [1] [[0], [0]] [[1], [1]] [1, 1] = .ok R' ∧ IsMat R' L.length L.length g' ∧
      i < L.length ∧ g' i i ≠ 0 ∧ quadrature [[0], [0]] [[1], [1]] (fun k p => ([1] : List ℝ).getD k 0 *
        (basis 2 [1, 1] (L.getD i []) p * basis 2 [1, 1] (L.getD i []) p)) = 0 := by
    by_cases hr : s = .rectangle
    · subst hr
      obtain ⟨R', g', i, L, h1, h2, h3, h4, h5, h6⟩ := C35_rectangle_false (T := T)
      exact ⟨R', g', i, L, h1, h2, h3, h4, by rw [h5]; positivity, h6⟩
    · obtain ⟨R', g', i, L, h1, h2, h3, h4, h5, h6⟩ := C35_C36_fourier_false (T := T) s (by cases s <;> simp_all)
      exact ⟨R', g', i, L, h1, h2, h3, h4, by rw [h5]; exact neg_ne_zero.2 (by positivity), h6⟩
  obtain ⟨L1, hL1⟩ := list_exists s (formOk_origin_line s).sized
  obtain ⟨L2, hL2⟩ := list_exists s (formOk_origin_line s).sized2
  have ok := IterOk.of_list (formOk_origin s).sized.fits' hL
  have ok1 := IterOk.of_list (formOk_origin_line s).sized.fits' hL1
  obtain ⟨M, e, hM⟩ := C35_exact (T := S) 0 s 2 [[0]] [[1]] [1] (formOk_origin_line s)
    (C35_closed _ _ _ _ rfl (by simp) (by simp) (by simp)) L1 L2 hL1 hL2 [1] (by simp [gridPoints, cartesian])
    (noDrop_origin_line s L2 hL2)
  obtain ⟨fn, hfn⟩ : ∃ fn : Nat → Nat → ℝ, fn = fun i j => trig ((L1.getD i []).getD 0 0) 0 * trig ((L1.getD j []).getD 0 0) 0 :=
    ⟨_, rfl⟩
  have hM' : IsMat M L1.length L1.length fn := by
    refine LawfulMat.congr hM fun i j _ _ => ?_
    rw [hfn]
    simp [quadrature, gridPoints, gridWeights, cartesian, basis, phi]
  obtain ⟨R, e1, hR⟩ := C18_tensorize_mats (S := S) (T := T) s 2 2 (formOk_origin s).sized (formOk_origin s).usable
    [(M, ⟨[0], L1, fn⟩), (M, ⟨[1], L1, fn⟩)] ⟨by simp, (by decide : [0, 1].Perm (List.range 2))⟩
    (by
      intro b hb
      have : b = (M, ⟨[0], L1, fn⟩) ∨ b = (M, ⟨[1], L1, fn⟩) := by simpa using hb
      rcases this with rfl | rfl <;> exact ⟨hL1, hM'⟩) L hL
  refine ⟨M, R, R', _, g', i, L, hL, e, e1, e', hR, hR', hi, ?_⟩
  have mi : InSet s 2 2 (L.getD i []) := (ok.mem _).1 (by simp [hi])
  have hent : ∀ d < 2, entry L1 fn (restrict [d] (L.getD i [])) (restrict [d] (L.getD i [])) =
      trig ((L.getD i []).getD d 0) 0 * trig ((L.getD i []).getD d 0) 0 := by
    intro d hd
    have ri := (ok1.mem _).2 (inSet_restrict (C15_increasing_dirs s 2 [d] (by simp) (by simp) (by simpa using hd)) mi)
    rw [entry, if_pos ⟨ri, ri⟩, hfn]
    beta_reduce
    rw [List.getD_eq_getElem?_getD (l := L1), List.getElem?_eq_getElem (List.idxOf_lt_length_iff.2 ri), List.getElem_idxOf]
    rfl
  rw [quadrature_point, basis_two] at hq
  simp only [List.getD_cons_zero, List.getD_cons_succ, phi, if_true, one_mul] at hq
  simp only [List.map_cons, List.map_nil, List.prod_cons, List.prod_nil, MBlock.entry, hent 0 (by omega), hent 1 (by omega), mul_one]
  rw [show ∀ x y : ℝ, x * x * (y * y) = x * y * (x * y) by intro x y; ring, hq]
  exact fun h => hne h.symm

end Hermipy.Props
