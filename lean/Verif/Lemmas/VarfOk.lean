import Verif.Lemmas.Line
import Verif.Lemmas.TripleSupport
import Verif.Lemmas.Arith
import Verif.Lemmas.TensorizeId
import Verif.Lemmas.Small

/-! # The entries of the variational matrix -/

namespace Hermipy

open Spec

/-- One slice of a table. -/
noncomputable def slice (n : Nat) (f k : Nat) : DMat ℝ :=
  (List.range (n + 1)).map fun i => (List.range (n + 1)).map fun j => triple f k i j

theorem slice_isMat (n f k : Nat) : IsMat (slice n f k) (n + 1) (n + 1) (triple f k) := by
  refine ⟨by simp [slice], ?_, ?_⟩
  · intro r hr
    obtain ⟨i, -, rfl⟩ := List.mem_map.1 hr
    simp
  · intro i j r x hr hx
    simp only [slice, List.getElem?_map, Option.map_eq_some_iff] at hr
    obtain ⟨a, ha, rfl⟩ := hr
    simp only [List.getElem?_map, Option.map_eq_some_iff] at hx
    obtain ⟨b, hb, rfl⟩ := hx
    obtain ⟨h1, e1⟩ := List.getElem?_eq_some_iff.1 ha
    obtain ⟨h2, e2⟩ := List.getElem?_eq_some_iff.1 hb
    simp only [List.getElem_range] at e1 e2
    rw [e1, e2]

theorem slice_congr {n f k : Nat} (hf : f ≠ 1) : slice n f k = slice n 0 k := by
  rw [slice, slice]
  simp only [triple_hermite hf]

theorem varfFactors_ok {n : Nat} {F : List (List (List ℝ))} : ∀ (fs : List Nat) (ms : IVec), fs.length = ms.length →
    (∀ x ∈ ms, x ≤ 2 * n) → (1 ∈ fs → F = cubeOf (2 * n + 1) (n + 1) (triple 1)) →
    varfFactors (cubeOf (2 * n + 1) (n + 1) (triple 0)) F fs ms = .ok (List.zipWith (slice n) fs ms)
  | [], [], _, _, _ => rfl
  | [], _ :: _, h, _, _ => by simp at h
  | _ :: _, [], h, _, _ => by simp at h
  | f :: fs, m :: ms, hl, hm, hF => by
    have hm0 : m < 2 * n + 1 := by have := hm m (by simp); omega
    have e : (if f = 1 then rd F m else rd (cubeOf (2 * n + 1) (n + 1) (triple 0)) m) = .ok (slice n f m) := by
      by_cases hf : f = 1
      · rw [if_pos hf, hF (by simp [hf]), cubeOf, rd_map_range _ hm0, hf]
        rfl
      · rw [if_neg hf, cubeOf, rd_map_range _ hm0, slice_congr hf]
        rfl
    rw [varfFactors, varfFactors_ok fs ms (by simpa using hl) (fun x hx => hm x (by simp [hx]))
      (fun h => hF (by simp [h]))]
    by_cases hf : f = 1
    · simp only [if_pos hf] at e ⊢
      rw [e]; rfl
    · simp only [if_neg hf] at e ⊢
      rw [e]; rfl

theorem zipWith_slice {n dim : Nat} {fs ms : List Nat} (h1 : fs.length = dim) (h2 : ms.length = dim) :
    List.zipWith (slice n) fs ms = (List.range dim).map fun d => slice n (fs.getD d 0) (ms.getD d 0) := by
  apply List.ext_getElem
  · simp [h1, h2]
  · intro i hi hi'
    simp only [List.length_map, List.length_range] at hi'
    simp [h1, h2, hi']

/-- The tensor product of slices. -/
theorem tensor_slices {T : Type} [Meaning T ℝ] [Convert (SpMat ℝ) T] [LawfulConvert (SpMat ℝ) T ℝ] [MatOps T ℝ] [LawfulMat T ℝ]
    {s : IndexSet} {dim degree : Nat}
    (hz : Sized s dim degree) (hu : ∀ k, 1 ≤ k → k < dim → Usable s k degree) (hc : s = .cross ∨ s = .cross_nc → 1 ≤ degree)
    {L : List IVec} (hL : IterOk s dim degree L) {fourier m : List Nat} (hf : fourier.length = dim) (hm : m.length = dim) :
    ∃ R : T, tensorize_mats_axes (α := ℝ) (S := DMat ℝ) s (List.zipWith (slice degree) fourier m) = .ok R ∧
      IsMat R L.length L.length (fun i j => tripleProd dim fourier m (L.getD i []) (L.getD j [])) := by
  obtain ⟨L1, hL1⟩ := iterOk_exists (hz.sub le_rfl hz.dim_pos).fits'
  have hline := hL1.line hc
  obtain ⟨blk, hblk⟩ : ∃ blk : Nat → DMat ℝ × MBlock ℝ, blk = fun d =>
    (slice degree (fourier.getD d 0) (m.getD d 0), ⟨[d], L1, triple (fourier.getD d 0) (m.getD d 0)⟩) := ⟨_, rfl⟩
  have hd1 : ((List.range dim).map blk).map (·.2.dirs) = (List.range dim).map fun i => [i] := by
    rw [List.map_map, hblk]; rfl
  have hd2 : ((List.range dim).map blk).map (·.1) = List.zipWith (slice degree) fourier m := by
    rw [List.map_map, hblk, zipWith_slice hf hm]; rfl
  obtain ⟨R, eR, hR⟩ := tensorize_mats_ok (T := T) (bs := (List.range dim).map blk) hz hu
    (by rw [hd1]; exact partition_axes)
    (by
      intro b hb
      obtain ⟨i, -, rfl⟩ := List.mem_map.1 hb
      rw [hblk]
      refine ⟨hL1.list, ?_⟩
      have := slice_isMat degree (fourier.getD i 0) (m.getD i 0)
      simpa [hline] using this) hL
  rw [hd1, hd2] at eR
  refine ⟨R, ?_, LawfulMat.congr hR fun i j hi hj => ?_⟩
  · rw [tensorize_mats_axes, axesDirs_eq]
    have : (List.zipWith (slice degree) fourier m).length = dim := by simp [hf, hm]
    rw [this]
    exact eR
  · rw [List.map_map, ← List.prod_toFinset _ List.nodup_range, tripleProd]
    have e : (List.range dim).toFinset = Finset.range dim := by ext; simp
    rw [e]
    apply Finset.prod_congr rfl
    intro x hx
    have hx := Finset.mem_range.1 hx
    have hin : ∀ i, i < L.length → (L.getD i []).getD x 0 ≤ degree := by
      intro i hi
      have := inSet_restrict (dirs_single s hx) ((hL.mem (L.getD i [])).1 (by simp [hi]))
      exact (inSet_one hc _).1 this
    have hidx : ∀ a, a ≤ degree → [a] ∈ L1 ∧ L1.idxOf [a] = a := by
      intro a ha
      have h0 : L1[a]? = some [a] := by rw [hline, List.getElem?_map, List.getElem?_range (by omega)]; rfl
      exact ⟨List.mem_of_getElem? h0, idxOf_of_getElem? hL1.nodup h0⟩
    rw [hblk]
    simp only [Function.comp, MBlock.entry, restrict, List.map_cons, List.map_nil]
    rw [entry, if_pos ⟨(hidx _ (hin i hi)).1, (hidx _ (hin j hj)).1⟩, (hidx _ (hin i hi)).2, (hidx _ (hin j hj)).2]

theorem foldl_add_sum (c : List ℝ) (t : ℝ) :
    c.foldl (fun t x => t + |x| * |x|) t = t + ∑ i ∈ Finset.range c.length, c.getD i 0 ^ 2 := by
  induction c generalizing t with
  | nil => simp
  | cons a c ih =>
    rw [List.foldl_cons, ih, List.length_cons, Finset.sum_range_succ']
    simp only [List.getD_cons_succ, List.getD_cons_zero]
    rw [abs_mul_abs_self]
    ring

theorem varfNorm_eq (L : List IVec) (c : List Nat → ℝ) : THRESHOLD * varfNorm (L.map c) = dropTol L c := by
  have e : √(∑ i ∈ Finset.range (L.map c).length, (L.map c).getD i 0 ^ 2) =
      √(∑ i ∈ Finset.range L.length, c (L.getD i []) ^ 2) := by
    congr 1
    rw [List.length_map]
    apply Finset.sum_congr rfl
    intro i hi
    simp [Finset.mem_range.1 hi]
  rw [varfNorm, foldl_add_sum, zero_add, e, dropTol, THRESHOLD]
  congr 1
  by_cases h : √(∑ i ∈ Finset.range L.length, c (L.getD i []) ^ 2) < 1
  · rw [if_pos h, max_eq_left h.le]
  · rw [if_neg h, max_eq_right (not_lt.1 h)]

theorem varf_ok {T : Type} [Meaning T ℝ] [Convert (SpMat ℝ) T] [LawfulConvert (SpMat ℝ) T ℝ] [MatOps T ℝ] [LawfulMat T ℝ]
    [MatArith T ℝ] [LawfulArith T ℝ] {slack : Nat} {s : IndexSet} {degree : Nat} {nodes weights : List (List ℝ)}
    {fourier : List Nat} (hz : Sized s nodes.length degree) (hz2 : Sized s nodes.length (2 * degree))
    (hu : ∀ k, 1 ≤ k → k < nodes.length → Usable s k degree) (hg : Spec.Grid nodes fourier)
    (hd : DegreeOk slack s degree fourier) (hw : weights.map List.length = nodes.map List.length) {L L2 : List IVec}
    (hL : IterOk s nodes.length degree L) (hL2 : IterOk s nodes.length (2 * degree) L2) {f : List ℝ}
    (hf : f.length = (gridPoints nodes).length) :
    ∃ R : T, varf slack s degree f nodes weights fourier = .ok R ∧ IsMat R L.length L.length (fun i j =>
      ∑ t ∈ Finset.range L2.length, kept (dropTol L2 (fcoef nodes weights fourier f)) (fcoef nodes weights fourier f (L2.getD t [])) *
        tripleProd nodes.length fourier (L2.getD t []) (L.getD i []) (L.getD j [])) := by
  have hd2 : DegreeOk slack s (2 * degree) fourier :=
    ⟨fun _ => by omega, fun h => by have := hd.hermite h; omega, fun h => by have := hd.cross h; omega⟩
  have hwrap : wrap32 (2 * degree) = 2 * degree := Nat.mod_eq_of_lt hz2.degree_lt
  have hsize := hL.size hz.dim_pos (by rw [hL.length]; exact hz.card_lt)
  have htr := transform_forward_ok hz2 hg hd2 hw hL2 hf
  rw [varf]
  dsimp only
  rw [hsize, Out.ok_bind, hwrap, htr, Out.ok_bind, hL2.iter, Out.ok_bind, triple_products_1d_ok, Out.ok_bind, freshIter_reset]
  obtain ⟨F, hF, hF1⟩ : ∃ F : List (List (List ℝ)), (if 1 ∈ fourier then triple_products_fourier degree else .ok []) = .ok F ∧
      (1 ∈ fourier → F = cubeOf (2 * degree + 1) (degree + 1) (triple 1)) := by
    by_cases h : 1 ∈ fourier
    · exact ⟨_, by rw [if_pos h, triple_products_fourier_ok (hd.even h)], fun _ => rfl⟩
    · exact ⟨[], by rw [if_neg h], fun h' => absurd h' h⟩
  have hbody : ∃ R : T, (do
      let r ← countLoop (L2.map (fcoef nodes weights fourier f)).length (freshIter nodes.length L2)
        (MatOps.construct (M := T) L.length L.length) fun i m result => do
          let h ← rd (L2.map (fcoef nodes weights fourier f)) i
          if |h| < THRESHOLD * varfNorm (L2.map (fcoef nodes weights fourier f)) then .ok result
          else do
            let factors ← varfFactors (cubeOf (2 * degree + 1) (degree + 1) (triple 0)) F fourier m
            let it ← tensorize_mats_axes (α := ℝ) (S := DMat ℝ) (T := T) s factors
            MatArith.add result (MatArith.scale it h)
      Out.ok r.2) = .ok R ∧ IsMat R L.length L.length (fun i j =>
      ∑ t ∈ Finset.range L2.length, kept (dropTol L2 (fcoef nodes weights fourier f)) (fcoef nodes weights fourier f (L2.getD t [])) *
        tripleProd nodes.length fourier (L2.getD t []) (L.getD i []) (L.getD j [])) := by
    obtain ⟨it, R, e, -, hR⟩ := hL2.countLoop (acc := MatOps.construct (M := T) L.length L.length)
      (body := fun i m result => do
          let h ← rd (L2.map (fcoef nodes weights fourier f)) i
          if |h| < THRESHOLD * varfNorm (L2.map (fcoef nodes weights fourier f)) then .ok result
          else do
            let factors ← varfFactors (cubeOf (2 * degree + 1) (degree + 1) (triple 0)) F fourier m
            let it ← tensorize_mats_axes (α := ℝ) (S := DMat ℝ) (T := T) s factors
            MatArith.add result (MatArith.scale it h))
      (fun n R => IsMat R L.length L.length (fun i j =>
        ∑ t ∈ Finset.range n, kept (dropTol L2 (fcoef nodes weights fourier f)) (fcoef nodes weights fourier f (L2.getD t [])) *
          tripleProd nodes.length fourier (L2.getD t []) (L.getD i []) (L.getD j [])))
      (by simpa using LawfulMat.construct (M := T) (α := ℝ) L.length L.length)
      (by
        intro t m R ht hR
        obtain ⟨hlt, hte⟩ := List.getElem?_eq_some_iff.1 ht
        have hget : L2.getD t [] = m := by simp [hlt, hte]
        have hrd : rd (L2.map (fcoef nodes weights fourier f)) t = .ok (fcoef nodes weights fourier f m) := by
          rw [rd_of_lt (by simpa using hlt)]
          simp [hte]
        simp only [hrd, Out.ok_bind, varfNorm_eq]
        by_cases hdrop : |fcoef nodes weights fourier f m| < dropTol L2 (fcoef nodes weights fourier f)
        · rw [if_pos hdrop]
          refine ⟨R, rfl, LawfulMat.congr hR fun i j _ _ => ?_⟩
          rw [Finset.sum_range_succ, hget, kept, if_pos hdrop, zero_mul, add_zero]
        · rw [if_neg hdrop]
          have hmem := (hL2.mem m).1 (List.mem_of_getElem? ht)
          have hml := inSet_length hmem
          rw [varfFactors_ok fourier m (by rw [hg.flags.1, hml]) (inSet_le hd2.cross hmem) hF1]
          obtain ⟨S, eS, hS⟩ := tensor_slices (T := T) hz hu hd.cross hL hg.flags.1 hml
          obtain ⟨C, eC, hC⟩ := LawfulArith.add hR (LawfulArith.scale (fcoef nodes weights fourier f m) hS)
          refine ⟨C, ?_, LawfulMat.congr hC fun i j _ _ => ?_⟩
          · rw [Out.ok_bind, eS, Out.ok_bind, eC]
          · rw [Finset.sum_range_succ, hget, kept, if_neg hdrop, mul_comm (fcoef _ _ _ _ m)])
    refine ⟨R, ?_, hR⟩
    rw [List.length_map, e, Out.ok_bind]
  by_cases h1 : 1 ∈ fourier
  · rw [if_pos h1] at hF ⊢
    rw [hF, Out.ok_bind]
    exact hbody
  · rw [if_neg h1] at hF ⊢
    rw [hF, Out.ok_bind]
    exact hbody

end Hermipy
