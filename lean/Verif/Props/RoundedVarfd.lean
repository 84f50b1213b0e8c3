import Verif.Lemmas.RoundedVarfd
import Verif.Lemmas.RoundedDiscretize
import Verif.Props.RoundedVarf
import Verif.Props.Varfd

/-!
# Property C97: rounding errors of derivative forms and of discretisation

`varfd` and `discretize` over floating-point numbers, in the standard model of rounding of C91 and C95. -/

namespace Hermipy.Props

open Hermipy.Spec

variable {α : Type} [Doubles α]

/-- C97. Without rounding the functions are those of the other properties. -/
theorem C97_exact : (∀ {T : Type} [MatOps T ℝ] [Stored T ℝ], @varfdF ℝ realDoubles T _ _ = varfd (T := T)) ∧
    @varfd_matF ℝ realDoubles = varfd_mat :=
  ⟨varfdF_real, varfd_matF_real⟩

section
variable {T : Type} [MatOps T α] [Stored T α] [Meaning T α] [LawfulMat T α] [LawfulStored T α]

/-- C97. In a Hermite direction the entry `(I, J)` is the exact factor times an entry of the matrix, up to two rounding errors, and exactly zero
where the derivative of `φ_J` is zero. -/
theorem C97_hermite (val : α → ℝ) (u : ℝ) (A : AccurateD α val u) (s : IndexSet) (dim degree d : ℕ) (hz : Sized s dim degree) (hd : d < dim)
    (L : List (List ℕ)) (hL : s.s_list dim degree = .ok L) (M : T) (f : ℕ → ℕ → α) (hM : IsMat M L.length L.length f) :
    ∃ (R : T) (g : ℕ → ℕ → α), varfdF s dim degree d M 0 = .ok R ∧ IsMat R L.length L.length g ∧ ∀ i j, i < L.length → j < L.length →
      ((L.getD j []).getD d 0 = 0 → g i j = 0) ∧
      ((L.getD j []).getD d 0 ≠ 0 →
        |val (g i j) - √((L.getD j []).getD d 0 : ℝ) * val (entry L f (L.getD i []) (lower d (L.getD j [])))| ≤
          err u 2 * (√((L.getD j []).getD d 0 : ℝ) * |val (entry L f (L.getD i []) (lower d (L.getD j [])))|)) := by
  have ok := IterOk.of_list hz.fits' hL
  obtain ⟨R, e, hR⟩ := varfdF_ok (T := T) (fl := 0) hz ok hd (fun _ _ h => absurd rfl h) hM
  refine ⟨R, _, e, hR, fun i j hi hj => ⟨fun h0 => if_pos h0, fun h0 => ?_⟩⟩
  have mi : L.getD i [] ∈ L := by simp [hi]
  have mj : InSet s dim degree (L.getD j []) := (ok.mem _).1 (by simp [hj])
  have ml : lower d (L.getD j []) ∈ L := (ok.mem _).2 (inSet_set mj (by omega))
  have hidx : L.idxOf (L.getD i []) = i := idxOf_of_getElem? ok.nodup (by simp [hi])
  have hle := entry_le hz mj d
  simp only [u32] at hle
  rw [if_neg h0, entry, if_pos ⟨mi, ml⟩, hidx, srcIdx, if_pos rfl, mul_comm √_, mul_comm √_]
  exact (moveVal_hermite A (by omega) _).err

/-- C97. In a Fourier direction, likewise, when the set contains with each sine the cosine of the same wave number. -/
theorem C97_fourier (val : α → ℝ) (u : ℝ) (A : AccurateD α val u) (s : IndexSet) (dim degree d : ℕ) (hz : Sized s dim degree) (hd : d < dim)
    (hp : PairClosed s dim degree d) (L : List (List ℕ)) (hL : s.s_list dim degree = .ok L) (M : T) (f : ℕ → ℕ → α)
    (hM : IsMat M L.length L.length f) :
    ∃ (R : T) (g : ℕ → ℕ → α), varfdF s dim degree d M 1 = .ok R ∧ IsMat R L.length L.length g ∧ ∀ i j, i < L.length → j < L.length →
      ((L.getD j []).getD d 0 = 0 → g i j = 0) ∧
      ((L.getD j []).getD d 0 ≠ 0 →
        |val (g i j) - (signedWave d (L.getD j []) : ℝ) * val (entry L f (L.getD i []) (partner d (L.getD j [])))| ≤
          err u 2 * (|(signedWave d (L.getD j []) : ℝ)| * |val (entry L f (L.getD i []) (partner d (L.getD j [])))|)) := by
  have ok := IterOk.of_list hz.fits' hL
  have hpm : ∀ J ∈ L, partner d J ∈ L := by
    intro J hJ
    by_cases he : J.getD d 0 % 2 = 0
    · exact (ok.mem _).2 (partner_mem ((ok.mem _).1 hJ) he)
    · exact (ok.mem _).2 (hp _ ((ok.mem _).1 hJ) (by omega))
  obtain ⟨R, e, hR⟩ := varfdF_ok (T := T) (fl := 1) hz ok hd (fun J hJ _ _ => hpm J hJ) hM
  refine ⟨R, _, e, hR, fun i j hi hj => ⟨fun h0 => if_pos h0, fun h0 => ?_⟩⟩
  have mi : L.getD i [] ∈ L := by simp [hi]
  have mj : L.getD j [] ∈ L := by simp [hj]
  have hidx : L.idxOf (L.getD i []) = i := idxOf_of_getElem? ok.nodup (by simp [hi])
  have hle := entry_le hz ((ok.mem _).1 mj) d
  simp only [u32] at hle
  have hw : |(signedWave d (L.getD j []) : ℝ)| = ((((L.getD j []).getD d 0 + 1) / 2 : ℕ) : ℝ) := by
    rw [signedWave]
    split_ifs with ho
    · rw [Int.cast_natCast, Nat.abs_cast]
    · rw [Int.cast_neg, Int.cast_natCast, abs_neg, Nat.abs_cast, show ((L.getD j []).getD d 0 + 1) / 2 = (L.getD j []).getD d 0 / 2 by omega]
  rw [if_neg h0, entry, if_pos ⟨mi, hpm _ mj⟩, hidx, srcIdx, if_neg (by omega), hw, mul_comm (signedWave _ _ : ℝ), mul_comm (Nat.cast _ : ℝ)]
  exact (moveVal_fourier A (by omega) (by omega) _).err

end

/-- C97. The variant for nested vectors, in a Hermite direction. -/
theorem C97_dense (val : α → ℝ) (u : ℝ) (A : AccurateD α val u) (s : IndexSet) (dim degree d : ℕ) (hz : Sized s dim degree) (hd : d < dim)
    (L : List (List ℕ)) (hL : s.s_list dim degree = .ok L) (M : DMat α) (f : ℕ → ℕ → α) (hM : IsMat M L.length L.length f) :
    ∃ (R : DMat α) (g : ℕ → ℕ → α), varfd_matF s dim degree d M 0 = .ok R ∧ IsMat R L.length L.length g ∧
      ∀ i j, i < L.length → j < L.length →
      ((L.getD j []).getD d 0 = 0 → g i j = 0) ∧
      ((L.getD j []).getD d 0 ≠ 0 →
        |val (g i j) - √((L.getD j []).getD d 0 : ℝ) * val (entry L f (L.getD i []) (lower d (L.getD j [])))| ≤
          err u 2 * (√((L.getD j []).getD d 0 : ℝ) * |val (entry L f (L.getD i []) (lower d (L.getD j [])))|)) := by
  have ok := IterOk.of_list hz.fits' hL
  obtain ⟨R, e, hR⟩ := varfd_matF_ok (fl := 0) hz ok hd hM (fun J hJ _ => by
    rw [srcIdx, if_pos rfl]
    exact (ok.mem _).2 (inSet_set ((ok.mem _).1 hJ) (by omega)))
  refine ⟨R, _, e, hR, fun i j hi hj => ⟨fun h0 => if_neg (by simpa using h0), fun h0 => ?_⟩⟩
  have mi : L.getD i [] ∈ L := by simp [hi]
  have mj : InSet s dim degree (L.getD j []) := (ok.mem _).1 (by simp [hj])
  have ml : lower d (L.getD j []) ∈ L := (ok.mem _).2 (inSet_set mj (by omega))
  have hidx : L.idxOf (L.getD i []) = i := idxOf_of_getElem? ok.nodup (by simp [hi])
  have hle := entry_le hz mj d
  simp only [u32] at hle
  rw [if_pos h0, entry, if_pos ⟨mi, ml⟩, hidx, srcIdx, if_pos rfl, mul_comm √_ (val _), mul_comm √_ |_|]
  exact (srcFactorF_hermite A (by omega) _).err

/-- The hypotheses hold for a matrix of binary numbers. -/
example : Sized .triangle 2 3 ∧ PairClosed .cube 2 4 1 ∧ IsMat (MatOps.construct 10 10 : SpMat Binary) 10 10 fun _ _ => 0 :=
  ⟨(usable_small .triangle (by omega) (by omega) (by omega)).toSized, C40_closed _ _ _ _ rfl (by simp) (.inr (.inl rfl)),
    LawfulMat.construct (M := SpMat Binary) 10 10⟩

section
variable {T : Type} [Meaning T α] [Convert (SpMat α) T] [LawfulConvert (SpMat α) T α] [MatOps T α] [LawfulMat T α] [MatArith T α] [LawfulArith T α]
  [Stored T α] [LawfulStored T α]

theorem scaled_error {u w x y z b : ℝ} (hu : 0 ≤ u) (h1 : |z - w * x| ≤ err u 2 * (|w| * |x|)) (h2 : |x - y| ≤ b) :
    |z - w * y| ≤ |w| * ((1 + u) ^ 2 * b + err u 2 * |y|) := by
  have h3 : |x| ≤ |y| + b := by
    have := abs_sub_abs_le_abs_sub x y
    linarith
  have hw := abs_nonneg w
  have he := err_nonneg hu 2
  calc |z - w * y| = |(z - w * x) + w * (x - y)| := by ring_nf
    _ ≤ |z - w * x| + |w| * |x - y| := by rw [← abs_mul]; exact abs_add_le _ _
    _ ≤ err u 2 * (|w| * (|y| + b)) + |w| * b :=
      add_le_add (h1.trans (mul_le_mul_of_nonneg_left (mul_le_mul_of_nonneg_left h3 hw) he)) (mul_le_mul_of_nonneg_left h2 hw)
    _ = |w| * ((1 + u) ^ 2 * b + err u 2 * |y|) := by rw [err]; ring

/-- C97. The form of values `f` computed in floating-point arithmetic, then derived in floating-point arithmetic in a Hermite direction: the entry
`(I, J)` is the quadrature of `f φ_I ∂_d φ_J` up to the error of the form and two rounding errors. -/
theorem C97_form_hermite (val : α → ℝ) (u : ℝ) (A : AccurateD α val u) (slack : ℕ) (s : IndexSet) (degree d : ℕ) (nodes weights : List (List α))
    (fourier : List ℕ) (h : FormOk slack s degree (reals val nodes) (reals val weights) fourier) (hcl : Closed s nodes.length degree fourier)
    (hd : d < nodes.length) (hfl : fourier.getD d 0 ≠ 1) (L L2 : List (List ℕ)) (hL : s.s_list nodes.length degree = .ok L)
    (hL2 : s.s_list nodes.length (2 * degree) = .ok L2) (f : List α) (hf : f.length = (gridPoints (reals val nodes)).length) :
    ∃ (R : T) (c : ℕ → ℕ → α), (do let M : T ← varfF slack s degree f nodes weights fourier; varfdF s nodes.length degree d M 0) = .ok R ∧
      IsMat R L.length L.length c ∧ ∀ i j, i < L.length → j < L.length →
        |val (c i j) - quadrature (reals val nodes) (reals val weights) fun k p => (f.map val).getD k 0 *
            (basis nodes.length fourier (L.getD i []) p * dbasis nodes.length fourier d (L.getD j []) p)| ≤
          √((L.getD j []).getD d 0 : ℝ) *
            ((1 + u) ^ 2 * formErr u degree (reals val nodes) (reals val weights) fourier (f.map val) L2 (L.getD i []) (lower d (L.getD j [])) +
            err u 2 * |quadrature (reals val nodes) (reals val weights) fun k p => (f.map val).getD k 0 *
              (basis nodes.length fourier (L.getD i []) p * basis nodes.length fourier (lower d (L.getD j [])) p)|) := by
  have hz : Sized s nodes.length degree := by have := h.sized; rwa [reals_length] at this
  have ok := IterOk.of_list hz.fits' hL
  obtain ⟨M, b, e, hM, hb⟩ := C95_quadrature (T := T) val u A slack s degree nodes weights fourier h hcl L L2 hL hL2 f hf
  obtain ⟨R, c, e', hR, hc⟩ := C97_hermite val u A s nodes.length degree d hz hd L hL M b hM
  refine ⟨R, c, by rw [e, Out.ok_bind, e'], hR, fun i j hi hj => ?_⟩
  have mi : L.getD i [] ∈ L := by simp [hi]
  have mj : InSet s nodes.length degree (L.getD j []) := (ok.mem _).1 (by simp [hj])
  have ml : lower d (L.getD j []) ∈ L := (ok.mem _).2 (inSet_set mj (by omega))
  have hidx : L.idxOf (L.getD i []) = i := idxOf_of_getElem? ok.nodup (by simp [hi])
  have hlt := List.idxOf_lt_length_iff.2 ml
  have hg : L.getD (L.idxOf (lower d (L.getD j []))) [] = lower d (L.getD j []) := by
    rw [List.getD_eq_getElem?_getD, getElem?_idxOf' ml]; rfl
  have hq : quadrature (reals val nodes) (reals val weights) (fun k p => (f.map val).getD k 0 *
      (basis nodes.length fourier (L.getD i []) p * dbasis nodes.length fourier d (L.getD j []) p)) = √((L.getD j []).getD d 0 : ℝ) *
      quadrature (reals val nodes) (reals val weights) (fun k p => (f.map val).getD k 0 *
        (basis nodes.length fourier (L.getD i []) p * basis nodes.length fourier (lower d (L.getD j [])) p)) := by
    rw [← quadrature_smul]
    apply quadrature_congr
    intro k p hk
    rw [dbasis_hermite hd hfl (by rw [inSet_length mj]; exact hd) (by rw [gridPoint_length hk, reals_length]; exact hd)]
    ring
  have hbb := hb i (L.idxOf (lower d (L.getD j []))) hi hlt
  rw [hg] at hbb
  obtain ⟨c1, c2⟩ := hc i j hi hj
  rw [hq]
  by_cases h0 : (L.getD j []).getD d 0 = 0
  · rw [c1 h0, A.zero, h0]
    simp
  · have c3 := c2 h0
    rw [entry, if_pos ⟨mi, ml⟩, hidx] at c3
    have hs : |√((L.getD j []).getD d 0 : ℝ)| = √((L.getD j []).getD d 0 : ℝ) := abs_of_nonneg (Real.sqrt_nonneg _)
    have := scaled_error A.nonneg (w := √((L.getD j []).getD d 0 : ℝ)) (by rw [hs]; exact c3) hbb
    rw [hs] at this
    simpa only [formErr, reals_length, List.length_map] using this

/-- C97. Likewise in a Fourier direction. -/
theorem C97_form_fourier (val : α → ℝ) (u : ℝ) (A : AccurateD α val u) (slack : ℕ) (s : IndexSet) (degree d : ℕ) (nodes weights : List (List α))
    (fourier : List ℕ) (h : FormOk slack s degree (reals val nodes) (reals val weights) fourier) (hcl : Closed s nodes.length degree fourier)
    (hd : d < nodes.length) (hfl : fourier.getD d 0 = 1) (hp : PairClosed s nodes.length degree d) (L L2 : List (List ℕ))
    (hL : s.s_list nodes.length degree = .ok L) (hL2 : s.s_list nodes.length (2 * degree) = .ok L2) (f : List α)
    (hf : f.length = (gridPoints (reals val nodes)).length) :
    ∃ (R : T) (c : ℕ → ℕ → α), (do let M : T ← varfF slack s degree f nodes weights fourier; varfdF s nodes.length degree d M 1) = .ok R ∧
      IsMat R L.length L.length c ∧ ∀ i j, i < L.length → j < L.length →
        |val (c i j) - quadrature (reals val nodes) (reals val weights) fun k p => (f.map val).getD k 0 *
            (basis nodes.length fourier (L.getD i []) p * dbasis nodes.length fourier d (L.getD j []) p)| ≤
          |(signedWave d (L.getD j []) : ℝ)| *
            ((1 + u) ^ 2 * formErr u degree (reals val nodes) (reals val weights) fourier (f.map val) L2 (L.getD i []) (partner d (L.getD j [])) +
            err u 2 * |quadrature (reals val nodes) (reals val weights) fun k p => (f.map val).getD k 0 *
              (basis nodes.length fourier (L.getD i []) p * basis nodes.length fourier (partner d (L.getD j [])) p)|) := by
  have hz : Sized s nodes.length degree := by have := h.sized; rwa [reals_length] at this
  have ok := IterOk.of_list hz.fits' hL
  obtain ⟨M, b, e, hM, hb⟩ := C95_quadrature (T := T) val u A slack s degree nodes weights fourier h hcl L L2 hL hL2 f hf
  obtain ⟨R, c, e', hR, hc⟩ := C97_fourier val u A s nodes.length degree d hz hd hp L hL M b hM
  refine ⟨R, c, by rw [e, Out.ok_bind, e'], hR, fun i j hi hj => ?_⟩
  have mi : L.getD i [] ∈ L := by simp [hi]
  have mj : InSet s nodes.length degree (L.getD j []) := (ok.mem _).1 (by simp [hj])
  have ml : partner d (L.getD j []) ∈ L := by
    by_cases he : (L.getD j []).getD d 0 % 2 = 0
    · exact (ok.mem _).2 (partner_mem mj he)
    · exact (ok.mem _).2 (hp _ mj (by omega))
  have hidx : L.idxOf (L.getD i []) = i := idxOf_of_getElem? ok.nodup (by simp [hi])
  have hlt := List.idxOf_lt_length_iff.2 ml
  have hg : L.getD (L.idxOf (partner d (L.getD j []))) [] = partner d (L.getD j []) := by
    rw [List.getD_eq_getElem?_getD, getElem?_idxOf' ml]; rfl
  have hq : quadrature (reals val nodes) (reals val weights) (fun k p => (f.map val).getD k 0 *
      (basis nodes.length fourier (L.getD i []) p * dbasis nodes.length fourier d (L.getD j []) p)) = (signedWave d (L.getD j []) : ℝ) *
      quadrature (reals val nodes) (reals val weights) (fun k p => (f.map val).getD k 0 *
        (basis nodes.length fourier (L.getD i []) p * basis nodes.length fourier (partner d (L.getD j [])) p)) := by
    rw [← quadrature_smul]
    apply quadrature_congr
    intro k p hk
    rw [dbasis_fourier hd hfl (by rw [inSet_length mj]; exact hd) (by rw [gridPoint_length hk, reals_length]; exact hd)]
    ring
  have hbb := hb i (L.idxOf (partner d (L.getD j []))) hi hlt
  rw [hg] at hbb
  obtain ⟨c1, c2⟩ := hc i j hi hj
  rw [hq]
  by_cases h0 : (L.getD j []).getD d 0 = 0
  · have : signedWave d (L.getD j []) = 0 := by rw [signedWave, h0]; rfl
    rw [c1 h0, A.zero, this]
    simp
  · have c3 := c2 h0
    rw [entry, if_pos ⟨mi, ml⟩, hidx] at c3
    have := scaled_error A.nonneg c3 hbb
    simpa only [formErr, reals_length, List.length_map] using this

end

/-- The hypotheses hold for a grid of binary numbers with a Hermite and a Fourier direction. -/
example : FormOk 0 .cube 4 (reals Binary.val [[rnd (-1), rnd 0, rnd 2], [rnd 0, rnd 3]])
      (reals Binary.val [[rnd 1, rnd (1 / 3), rnd 1], [rnd 5, rnd 5]]) [0, 1] ∧ Closed .cube 2 4 [0, 1] ∧ PairClosed .cube 2 4 1 :=
  ⟨formOk_small (by simp [reals]) (by omega) ⟨by simp [reals], by simp [reals], by simp [reals], by simp [reals, gridPoints, cartesian]⟩
      ⟨by simp, by simp, by simp⟩ (by simp [reals]),
    C35_closed _ _ _ _ rfl (by simp) (by simp) (by simp), C40_closed _ _ _ _ rfl (by simp) (.inr (.inl rfl))⟩

omit [Doubles α] in
theorem cartesian_mem_length [Zero α] {nodes : List (List α)} {p : List α} (hp : p ∈ cartesian nodes) : p.length = nodes.length := by
  rw [cartesian_pick 0] at hp
  obtain ⟨b, hb, rfl⟩ := List.mem_map.1 hp
  have := (mem_boxList.1 hb).length_eq
  simp only [List.length_map] at this
  simp [pick, this]

/-- C97. The function is called at points which are the mapped grid points up to `dim + 1` rounding errors. -/
theorem C97_discretize (val : α → ℝ) (u : ℝ) (A : AccurateD α val u) (func : List α → Out α) (g : List α → α) (nodes : List (List α))
    (t : List α) (D : List (List α)) (h1 : nodes ≠ []) (hsm : (cartesian nodes).length < 2 ^ 32) (ht : t.length = nodes.length)
    (hD : D.length = nodes.length) (hr : ∀ r ∈ D, r.length = nodes.length) (hf : ∀ q : List α, q.length = nodes.length → func q = .ok (g q)) :
    ∃ r, discretize func nodes t D = .ok r ∧ r.length = (cartesian nodes).length ∧ ∀ (i : ℕ) (p : List α), (cartesian nodes)[i]? = some p →
      ∃ q : List α, NearAffine u (t.map val) (reals val D) (p.map val) (q.map val) ∧ r[i]? = some (g q) := by
  refine ⟨_, discretize_gen (g := g) h1 hsm ht hD hr fun p hp => hf _ (by rw [affineF_length, cartesian_mem_length hp]), by simp,
    fun i p hp => ?_⟩
  have hlen := cartesian_mem_length (List.mem_of_getElem? hp)
  refine ⟨affineF t D p, ⟨by simp [affineF_length], fun k hk => ?_⟩, by rw [List.getElem?_map, hp]; rfl⟩
  rw [List.length_map] at hk ⊢
  rw [getD_map_val A.toAccurate]
  exact (affineF_approx A.toAccurate t D p hk).err

/-- C97. When near the mapped point of `p` the compiled function computes `G` up to `ε p`, and `G` has there the Lipschitz constants `K p`, the
values are those of `G` at the exact mapped points up to `ε` and the effect of the rounding errors of the points. -/
theorem C97_values (val : α → ℝ) (u : ℝ) (A : AccurateD α val u) (func : List α → Out α) (g : List α → α) (nodes : List (List α))
    (t : List α) (D : List (List α)) (h1 : nodes ≠ []) (hsm : (cartesian nodes).length < 2 ^ 32) (ht : t.length = nodes.length)
    (hD : D.length = nodes.length) (hr : ∀ r ∈ D, r.length = nodes.length) (hf : ∀ q : List α, q.length = nodes.length → func q = .ok (g q))
    (G : List ℝ → ℝ) (ε : List ℝ → ℝ) (K : List ℝ → ℕ → ℝ) (hK : ∀ p k, 0 ≤ K p k)
    (hG : ∀ p ∈ cartesian nodes, ∀ q : List α, NearAffine u (t.map val) (reals val D) (p.map val) (q.map val) →
      |val (g q) - G (q.map val)| ≤ ε (p.map val))
    (hLip : ∀ p ∈ cartesian nodes, ∀ x : List ℝ, NearAffine u (t.map val) (reals val D) (p.map val) x →
      |G x - G (affine (t.map val) (reals val D) (p.map val))| ≤
        ∑ k ∈ Finset.range nodes.length, K (p.map val) k * |x.getD k 0 - (affine (t.map val) (reals val D) (p.map val)).getD k 0|) :
    ∃ r, discretize func nodes t D = .ok r ∧ r.length = (cartesian nodes).length ∧ ∀ (i : ℕ) (p : List α), (cartesian nodes)[i]? = some p →
      |val (r.getD i 0) - G (affine (t.map val) (reals val D) (p.map val))| ≤
        ε (p.map val) + err u (nodes.length + 1) *
          ∑ k ∈ Finset.range nodes.length, K (p.map val) k * affineAbs (t.map val) (reals val D) (p.map val) k := by
  obtain ⟨r, e, hl, hq⟩ := C97_discretize val u A func g nodes t D h1 hsm ht hD hr hf
  refine ⟨r, e, hl, fun i p hp => ?_⟩
  obtain ⟨q, hn, hv⟩ := hq i p hp
  have hm := List.mem_of_getElem? hp
  have hpl := cartesian_mem_length hm
  rw [List.getD_eq_getElem?_getD, hv, Option.getD_some]
  calc |val (g q) - G (affine (t.map val) (reals val D) (p.map val))|
      = |(val (g q) - G (q.map val)) + (G (q.map val) - G (affine (t.map val) (reals val D) (p.map val)))| := by ring_nf
    _ ≤ |val (g q) - G (q.map val)| + |G (q.map val) - G (affine (t.map val) (reals val D) (p.map val))| := abs_add_le _ _
    _ ≤ _ := by
      refine add_le_add (hG p hm q hn) ((hLip p hm _ hn).trans ?_)
      rw [Finset.mul_sum]
      refine Finset.sum_le_sum fun k hk => ?_
      rw [mul_left_comm]
      have := hn.2 k (by rw [List.length_map, hpl]; exact Finset.mem_range.1 hk)
      rw [List.length_map, hpl] at this
      exact mul_le_mul_of_nonneg_left this (hK _ k)

/-- The hypotheses hold for a grid of binary numbers, a dilation, and the sum of the coordinates. -/
example (t : List Binary) (D : List (List Binary)) :
    ∃ ε : List ℝ → ℝ, (∀ p ∈ cartesian [[rnd (-1), rnd 0, rnd 2], [rnd 0, rnd 3]], ∀ q : List Binary,
      NearAffine (2 ^ (-53 : ℤ)) (t.map Binary.val) (reals Binary.val D) (p.map Binary.val) (q.map Binary.val) →
      |Binary.val (q.getD 0 0 + q.getD 1 0) - ((q.map Binary.val).getD 0 0 + (q.map Binary.val).getD 1 0)| ≤ ε (p.map Binary.val)) ∧
    (∀ x y : List ℝ, |x.getD 0 0 + x.getD 1 0 - (y.getD 0 0 + y.getD 1 0)| ≤ ∑ k ∈ Finset.range 2, (1 : ℝ) * |x.getD k 0 - y.getD k 0|) ∧
    (cartesian [[rnd (-1), rnd 0, rnd 2], [rnd 0, rnd 3]]).length < 2 ^ 32 := by
  have A := binary_accurateD.toAccurate
  refine ⟨fun p => 2 ^ (-53 : ℤ) * ∑ k ∈ Finset.range 2, (|(affine (t.map Binary.val) (reals Binary.val D) p).getD k 0| +
    err (2 ^ (-53 : ℤ)) (p.length + 1) * affineAbs (t.map Binary.val) (reals Binary.val D) p k), fun p hp q hq => ?_, fun x y => ?_,
    by simp [cartesian]⟩
  · have hpl : p.length = 2 := cartesian_mem_length hp
    rw [getD_map_val A, getD_map_val A]
    refine (A.add _ _).trans (mul_le_mul_of_nonneg_left ?_ (by positivity))
    rw [Finset.sum_range_succ, Finset.sum_range_one]
    refine (abs_add_le _ _).trans (add_le_add ?_ ?_)
    · have h := hq.2 0 (by simp [hpl])
      have := abs_sub_abs_le_abs_sub ((q.map Binary.val).getD 0 0) ((affine (t.map Binary.val) (reals Binary.val D) (p.map Binary.val)).getD 0 0)
      rw [getD_map_val A] at h this
      linarith
    · have h := hq.2 1 (by simp [hpl])
      have := abs_sub_abs_le_abs_sub ((q.map Binary.val).getD 1 0) ((affine (t.map Binary.val) (reals Binary.val D) (p.map Binary.val)).getD 1 0)
      rw [getD_map_val A] at h this
      linarith
  · rw [Finset.sum_range_succ, Finset.sum_range_one, one_mul, one_mul]
    calc |x.getD 0 0 + x.getD 1 0 - (y.getD 0 0 + y.getD 1 0)| = |(x.getD 0 0 - y.getD 0 0) + (x.getD 1 0 - y.getD 1 0)| := by ring_nf
      _ ≤ _ := abs_add_le _ _

end Hermipy.Props
