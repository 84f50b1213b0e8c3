import Verif.Lemmas.QuadVarf
import Verif.Lemmas.Derivative
import Verif.Lemmas.Varfd

/-! # The forms of a quadrature with derivatives -/

namespace Hermipy
open Spec
variable {F : Type}

/-- The multi-index that the derivative in direction number `i` leads to. -/
def dIdx (fl i : ℕ) (J : List ℕ) : List ℕ := if fl = 1 then partner i J else lower i J

/-- The factor that comes with it. -/
noncomputable def dCoef (fl i : ℕ) (J : List ℕ) : ℝ := if fl = 1 then (signedWave i J : ℝ) else √(J.getD i 0 : ℝ)

/-- One derivative of a function of multi-indices. -/
noncomputable def dStep (fl : ℕ) (var : ℝ) (i : ℕ) (E : List ℕ → ℝ) (J : List ℕ) : ℝ := dCoef fl i J * (1 / √var) * E (dIdx fl i J)

/-- The derivative in direction `d` of a quadrature. -/
noncomputable def qStep (q : HQuad F) (E : List ℕ → ℝ) (d : ℕ) : List ℕ → ℝ :=
  dStep (q.do_fourier.getD (q.position.dirs.idxOf d) 0) (entryOf q.position.cov (q.position.dirs.idxOf d) (q.position.dirs.idxOf d))
    (q.position.dirs.idxOf d) E

theorem dIdx_length (fl i : ℕ) (J : List ℕ) : (dIdx fl i J).length = J.length := by
  unfold dIdx
  split <;> simp [partner, lower]

theorem idxOf_getD {l : List ℕ} (h : l.Nodup) {i : ℕ} (hi : i < l.length) : l.idxOf (l.getD i 0) = i := by
  have e : l.getD i 0 = l[i] := by simp [hi]
  rw [e, h.idxOf_getElem]

/-! ## Derivatives of basis functions -/

theorem phi_deriv (fl i : ℕ) (J : List ℕ) (hi : i < J.length) (y : ℝ) :
    HasDerivAt (phi fl (J.getD i 0)) (dCoef fl i J * phi fl ((dIdx fl i J).getD i 0) y) y := by
  unfold dCoef dIdx
  split
  · rename_i h
    have e : ∀ k, phi fl k = trig k := by intro k; funext y; rw [phi, if_pos h]
    rw [e, e, partner_getD hi]
    exact trig_deriv _ _
  · rename_i h
    have e : ∀ k, phi fl k = herm k := by intro k; funext y; rw [phi, if_neg h]
    rw [e, e, lower, getD_set_self hi]
    exact herm_deriv _ _

theorem dIdx_getD_ne {fl i j : ℕ} (h : i ≠ j) (J : List ℕ) : (dIdx fl i J).getD j 0 = J.getD j 0 := by
  unfold dIdx
  split <;> simp [partner, lower, h]

theorem pd_coordBasis {p : Position} (hp : PosOk p) {fourier J : List ℕ} (hJ : J.length = p.dim) {d : ℕ} (hd : d ∈ p.dirs) :
    pd d (coordBasis p fourier J) = fun x =>
      dCoef (fourier.getD (p.dirs.idxOf d) 0) (p.dirs.idxOf d) J * (1 / √(entryOf p.cov (p.dirs.idxOf d) (p.dirs.idxOf d))) *
        coordBasis p fourier (dIdx (fourier.getD (p.dirs.idxOf d) 0) (p.dirs.idxOf d) J) x := by
  funext x
  have hil := List.idxOf_lt_length_iff.2 hd
  have hi : p.dirs.idxOf d < p.dim := by rw [← hp.dirs]; exact hil
  have hdi : p.dirs.getD (p.dirs.idxOf d) 0 = d := by simp [hil]
  generalize hii : p.dirs.idxOf d = i at *
  have hmem : i ∈ Finset.range p.dim := Finset.mem_range.2 hi
  have hother : ∀ k ∈ (Finset.range p.dim).erase i, p.dirs.getD k 0 ≠ d := by
    intro k hk e
    obtain ⟨h1, h2⟩ := Finset.mem_erase.1 hk
    have hkl : k < p.dirs.length := by rw [hp.dirs]; exact Finset.mem_range.1 h2
    apply h1
    rw [← hii, ← e]
    exact (idxOf_getD hp.nodup hkl).symm
  have e1 : ∀ t, coordBasis p fourier J (Function.update x d t) =
      phi (fourier.getD i 0) (J.getD i 0) ((t - p.mean.getD i 0) / √(entryOf p.cov i i)) *
      ∏ k ∈ (Finset.range p.dim).erase i, phi (fourier.getD k 0) (J.getD k 0) ((x (p.dirs.getD k 0) - p.mean.getD k 0) / √(entryOf p.cov k k)) := by
    intro t
    rw [coordBasis, ← Finset.mul_prod_erase _ _ hmem, hdi, Function.update_self]
    congr 1
    apply Finset.prod_congr rfl
    intro k hk
    rw [Function.update_of_ne (hother k hk)]
  have e2 : coordBasis p fourier (dIdx (fourier.getD i 0) i J) x =
      phi (fourier.getD i 0) ((dIdx (fourier.getD i 0) i J).getD i 0) ((x d - p.mean.getD i 0) / √(entryOf p.cov i i)) *
      ∏ k ∈ (Finset.range p.dim).erase i, phi (fourier.getD k 0) (J.getD k 0) ((x (p.dirs.getD k 0) - p.mean.getD k 0) / √(entryOf p.cov k k)) := by
    rw [coordBasis, ← Finset.mul_prod_erase _ _ hmem, hdi]
    congr 1
    apply Finset.prod_congr rfl
    intro k hk
    rw [dIdx_getD_ne (Finset.mem_erase.1 hk).1.symm]
  rw [pd, e2]
  simp only [e1]
  have h1 : HasDerivAt (fun t : ℝ => (t - p.mean.getD i 0) / √(entryOf p.cov i i)) (1 / √(entryOf p.cov i i)) (x d) := by
    simpa using ((hasDerivAt_id (x d)).sub_const (p.mean.getD i 0)).div_const (√(entryOf p.cov i i))
  have h2 := (phi_deriv (fourier.getD i 0) i J (by omega) ((x d - p.mean.getD i 0) / √(entryOf p.cov i i))).comp (x d) h1
  have h3 := (h2.mul_const (∏ k ∈ (Finset.range p.dim).erase i,
    phi (fourier.getD k 0) (J.getD k 0) ((x (p.dirs.getD k 0) - p.mean.getD k 0) / √(entryOf p.cov k k)))).deriv
  simp only [Function.comp_apply] at h3
  rw [h3]
  ring

theorem pd_const_mul (d : ℕ) (c : ℝ) (g : (ℕ → ℝ) → ℝ) : pd d (fun x => c * g x) = fun x => c * pd d g x := by
  funext x
  simp only [pd]
  rw [deriv_const_mul_field]

/-- Derivatives under a homogeneous functional. -/
theorem fold_qStep {q : HQuad F} (hp : PosOk q.position) : ∀ (ds : List ℕ), (∀ d ∈ ds, d ∈ q.position.dirs) →
    ∀ (l : ((ℕ → ℝ) → ℝ) → ℝ), (∀ c g, l (fun x => c * g x) = c * l g) → ∀ J : List ℕ, J.length = q.position.dim →
    ∀ E : List ℕ → ℝ, (∀ J : List ℕ, J.length = q.position.dim → E J = l (coordBasis q.position q.do_fourier J)) →
    ds.foldl (qStep q) E J = l (pds ds (coordBasis q.position q.do_fourier J))
  | [], _, l, _, J, hJ, E, hE => hE J hJ
  | d :: ds, hds, l, hl, J, hJ, E, hE => by
    rw [List.foldl_cons]
    refine fold_qStep hp ds (fun d' hd' => hds d' (by simp [hd'])) (fun g => l (pd d g)) ?_ J hJ _ ?_
    · intro c g
      rw [pd_const_mul, hl]
    · intro J hJ
      rw [pd_coordBasis hp hJ (hds d (by simp)), hl, qStep, dStep, hE _ (by rw [dIdx_length, hJ])]

theorem coordBasis_gridPoint {q : HQuad F} (hq : QuadOk q) (hv : VarPos q.position) (J : List ℕ) (x : List ℝ) :
    coordBasis q.position q.do_fourier J (gridPoint q.position x) = basis q.nodes.length q.do_fourier J x := by
  rw [coordBasis, basis, hq.dim]
  apply Finset.prod_congr rfl
  intro i hi
  have hi' := Finset.mem_range.1 hi
  have hil : i < q.position.dirs.length := by rw [hq.pos.dirs]; exact hi'
  have hii : q.position.dirs.idxOf (q.position.dirs.getD i 0) = i := idxOf_getD hq.pos.nodup hil
  rw [gridPoint, hii, add_sub_cancel_left, mul_div_cancel_left₀ _ (Real.sqrt_pos.2 (hv i hi')).ne']

theorem fold_formEntry {q : HQuad F} (hq : QuadOk q) (hv : VarPos q.position) (v : (ℕ → ℝ) → ℝ) {ds : List ℕ}
    (hds : ∀ d ∈ ds, d ∈ q.position.dirs) (I : List ℕ) {J : List ℕ} (hJ : J.length = q.position.dim) :
    ds.foldl (qStep q) (formEntry q v I) J = dformEntry q v ds I J := by
  refine fold_qStep hq.pos ds hds (fun g => quadrature q.nodes q.weights fun _ x => v (gridPoint q.position x) *
    (basis q.nodes.length q.do_fourier I x * g (gridPoint q.position x))) ?_ J hJ _ ?_
  · intro c g
    rw [← quadrature_smul]
    apply quadrature_congr
    intro i x _
    ring
  · intro J _
    rw [formEntry]
    apply quadrature_congr
    intro i x _
    rw [coordBasis_gridPoint hq hv]

/-! ## One direction -/

theorem flag_cases {q : HQuad F} (hq : QuadOk q) (i : ℕ) : q.do_fourier.getD i 0 = 0 ∨ q.do_fourier.getD i 0 = 1 := by
  by_cases hi : i < q.do_fourier.length
  · have : q.do_fourier.getD i 0 ∈ q.do_fourier := by simp [hi]
    exact hq.grid.flags.2 _ this
  · simp [Nat.le_of_not_lt hi]

theorem eigval_getElem {eig : Eig} (he : EigDiag eig) {q : HQuad F} (hq : QuadOk q) {i : ℕ} (hi : i < q.position.dim) :
    (eig q.position.cov).1[i]? = some (entryOf q.position.cov i i) := by
  have e : (eig q.position.cov).1 = (List.range q.position.dim).map fun i => entryOf q.position.cov i i := by
    conv_lhs => rw [hq.pos.cov_eq hq.diag, he]
  rw [e]
  simp [hi]

/-- The set contains the multi-indices of derivatives in direction number `i`. -/
def DClosed (s : IndexSet) (dim degree : ℕ) (fourier : List ℕ) (i : ℕ) : Prop := fourier.getD i 0 = 1 → PairClosed s dim degree i

theorem dIdx_mem {s : IndexSet} {dim degree i : ℕ} {fourier J : List ℕ} (h : DClosed s dim degree fourier i) (hJ : InSet s dim degree J) :
    InSet s dim degree (dIdx (fourier.getD i 0) i J) := by
  unfold dIdx
  split
  · rename_i h1
    rcases Nat.mod_two_eq_zero_or_one (J.getD i 0) with h0 | h0
    · exact partner_mem hJ h0
    · exact h h1 J hJ h0
  · exact inSet_set hJ (by omega)

theorem getD_idxOf' {L : List (List ℕ)} {m : List ℕ} (h : m ∈ L) : L.getD (L.idxOf m) [] = m := by
  rw [List.getD_eq_getElem?_getD, getElem?_idxOf' h, Option.getD_some]

theorem varfdDir_ok {T : Type} [MatOps T ℝ] [MatArith T ℝ] [Stored T ℝ] [Meaning T ℝ] [LawfulMat T ℝ] [LawfulStored T ℝ] [LawfulArith T ℝ]
    {eig : Eig} (he : EigDiag eig) {q : HQuad F} (hq : QuadOk q) {s : IndexSet} {degree : ℕ} (hz : Sized s q.position.dim degree)
    {L : List (List ℕ)} (hL : IterOk s q.position.dim degree L) {d : ℕ} (hd : d ∈ q.position.dirs)
    (hc : DClosed s q.position.dim degree q.do_fourier (q.position.dirs.idxOf d)) {A : T} {G : List ℕ → List ℕ → ℝ}
    (hA : IsMat A L.length L.length fun i j => G (L.getD i []) (L.getD j [])) :
    ∃ R : T, varfdDir (eig q.position.cov).1 degree s q A d = .ok R ∧
      IsMat R L.length L.length fun i j => qStep q (G (L.getD i [])) d (L.getD j []) := by
  have hil := List.idxOf_lt_length_iff.2 hd
  have hi : q.position.dirs.idxOf d < q.position.dim := by rw [← hq.pos.dirs]; exact hil
  have hfl : q.do_fourier[q.position.dirs.idxOf d]? = some (q.do_fourier.getD (q.position.dirs.idxOf d) 0) := by
    have : q.position.dirs.idxOf d < q.do_fourier.length := by rw [hq.grid.flags.1, hq.dim]; exact hi
    simp [this]
  have hmem : ∀ j, j < L.length → InSet s q.position.dim degree (L.getD j []) := fun j hj => (hL.mem _).1 (by simp [hj])
  obtain ⟨R, e, hR⟩ : ∃ R : T, varfd s q.position.dim degree (q.position.dirs.idxOf d) A (q.do_fourier.getD (q.position.dirs.idxOf d) 0) = .ok R ∧
      IsMat R L.length L.length fun i j => dCoef (q.do_fourier.getD (q.position.dirs.idxOf d) 0) (q.position.dirs.idxOf d) (L.getD j []) *
        G (L.getD i []) (dIdx (q.do_fourier.getD (q.position.dirs.idxOf d) 0) (q.position.dirs.idxOf d) (L.getD j [])) := by
    rcases flag_cases hq (q.position.dirs.idxOf d) with h0 | h0
    · rw [h0]
      obtain ⟨R, e, hR⟩ := varfd_hermite_ok hz hL hi hA
      refine ⟨R, e, LawfulMat.congr hR fun i j _ hj => ?_⟩
      have := dIdx_mem hc (hmem j hj)
      rw [h0] at this
      simp only [dCoef, dIdx, zero_ne_one, if_false] at this ⊢
      rw [getD_idxOf' ((hL.mem _).2 this)]
    · rw [h0]
      obtain ⟨R, e, hR⟩ := varfd_fourier_ok one_ne_zero hz hL hi hA fun e he' ho => by
        have hj := (LawfulStored.stored hA).2.1 e he'
        exact (hL.mem _).2 (hc h0 _ (hmem _ hj.2.1) ho)
      refine ⟨R, e, LawfulMat.congr hR fun i j _ hj => ?_⟩
      have := dIdx_mem hc (hmem j hj)
      rw [h0] at this
      simp only [dCoef, dIdx, if_true] at this ⊢
      rw [if_pos ((hL.mem _).2 this), getD_idxOf' ((hL.mem _).2 this)]
  refine ⟨_, ?_, LawfulMat.congr (LawfulArith.scale (1 / √(entryOf q.position.cov (q.position.dirs.idxOf d) (q.position.dirs.idxOf d))) hR) ?_⟩
  · rw [varfdDir, pyindex, if_pos hd, Out.ok_bind, pyget_some hfl, Out.ok_bind, e, Out.ok_bind, pyget_some (eigval_getElem he hq hi), Out.ok_bind]
  · intro i j _ _
    rw [qStep, dStep]
    ring

theorem varfdDirs_ok {T : Type} [MatOps T ℝ] [MatArith T ℝ] [Stored T ℝ] [Meaning T ℝ] [LawfulMat T ℝ] [LawfulStored T ℝ] [LawfulArith T ℝ]
    {eig : Eig} (he : EigDiag eig) {q : HQuad F} (hq : QuadOk q) {s : IndexSet} {degree : ℕ} (hz : Sized s q.position.dim degree)
    {L : List (List ℕ)} (hL : IterOk s q.position.dim degree L) : ∀ {ds : List ℕ}, (∀ d ∈ ds, d ∈ q.position.dirs) →
    (∀ d ∈ ds, DClosed s q.position.dim degree q.do_fourier (q.position.dirs.idxOf d)) → ∀ {A : T} {G : List ℕ → List ℕ → ℝ},
    IsMat A L.length L.length (fun i j => G (L.getD i []) (L.getD j [])) →
    ∃ R : T, ds.foldlM (varfdDir (eig q.position.cov).1 degree s q) A = .ok R ∧
      IsMat R L.length L.length fun i j => ds.foldl (qStep q) (G (L.getD i [])) (L.getD j [])
  | [], _, _, A, G, hA => ⟨A, rfl, hA⟩
  | d :: ds, hd, hc, A, G, hA => by
    obtain ⟨R, e, hR⟩ := varfdDir_ok he hq hz hL (hd d (by simp)) (hc d (by simp)) hA
    obtain ⟨R', e', hR'⟩ := varfdDirs_ok he hq hz hL (fun x hx => hd x (List.mem_cons_of_mem d hx)) (fun x hx => hc x (List.mem_cons_of_mem d hx))
      (G := fun I => qStep q (G I) d) hR
    exact ⟨R', by rw [List.foldlM_cons, e, Out.ok_bind]; exact e', hR'⟩

/-! ## Blocks -/

/-- The entry for the direction of the derivative. -/
def dVal (fl k : ℕ) : ℕ := if fl = 1 then (if k % 2 = 0 then k - 1 else k + 1) else k - 1

theorem dIdx_eq (fl i : ℕ) (J : List ℕ) : dIdx fl i J = J.set i (dVal fl (J.getD i 0)) := by
  unfold dIdx dVal
  split <;> rfl

theorem dCoef_congr {fl i i' : ℕ} {J J' : List ℕ} (h : J.getD i 0 = J'.getD i' 0) : dCoef fl i J = dCoef fl i' J' := by
  simp only [dCoef, signedWave, h]

theorem dIdx_outside {dirs : List ℕ} {J : List ℕ} {fl d : ℕ} {ds : List ℕ} (hd : d ∈ dirs) (h : d ∉ ds) (hds : ∀ e ∈ ds, e ∈ dirs) :
    ds.map (at' dirs (dIdx fl (dirs.idxOf d) J)) = ds.map (at' dirs J) := by
  apply List.map_congr_left
  intro e he
  refine dIdx_getD_ne ?_ J
  intro h0
  have := List.idxOf_inj (l := dirs) (hds e he) |>.1 h0.symm
  exact h (this ▸ he)

theorem dIdx_inside {dirs : List ℕ} {J : List ℕ} (hJ : J.length = dirs.length) {fl d : ℕ} {ds : List ℕ} (hn : ds.Nodup) (h : d ∈ ds)
    (hds : ∀ e ∈ ds, e ∈ dirs) :
    ds.map (at' dirs (dIdx fl (dirs.idxOf d) J)) = dIdx fl (ds.idxOf d) (ds.map (at' dirs J)) := by
  have hi := List.idxOf_lt_length_iff.2 h
  have hi' := List.idxOf_lt_length_iff.2 (hds d h)
  have hv : (ds.map (at' dirs J)).getD (ds.idxOf d) 0 = J.getD (dirs.idxOf d) 0 := by simp [hi, at']
  rw [dIdx_eq fl (ds.idxOf d), hv, dIdx_eq]
  apply List.ext_getElem
  · simp
  · intro k h1 h2
    rw [List.length_map] at h1
    rw [List.getElem_map, List.getElem_set]
    split
    · rename_i hk
      subst hk
      rw [List.getElem_idxOf, at', getD_set_self (by omega)]
    · rename_i hk
      rw [List.getElem_map]
      have : dirs.idxOf d ≠ dirs.idxOf ds[k] := by
        intro h0
        have := List.idxOf_inj (l := dirs) (hds d h) |>.1 h0
        apply hk
        rw [this, hn.idxOf_getElem]
      simp [at', this]

theorem qStep_sub {q : HQuad F} (hq : QuadOk q) (p : Product F) {ds : List ℕ} (hds : ∀ e ∈ ds, e ∈ q.position.dirs) (hn : ds.Nodup) {d : ℕ}
    (h : d ∈ ds) (E : List ℕ → ℝ) {J : List ℕ} (hJ : J.length = q.position.dim) :
    qStep (subQuad q p ds) E d (ds.map (at' q.position.dirs J)) =
      dCoef (q.do_fourier.getD (q.position.dirs.idxOf d) 0) (q.position.dirs.idxOf d) J *
      (1 / √(entryOf q.position.cov (q.position.dirs.idxOf d) (q.position.dirs.idxOf d))) *
      E (ds.map (at' q.position.dirs (dIdx (q.do_fourier.getD (q.position.dirs.idxOf d) 0) (q.position.dirs.idxOf d) J))) := by
  have hi := List.idxOf_lt_length_iff.2 h
  have e0 : (subQuad q p ds).position.dirs = ds := rfl
  have e1 : (subQuad q p ds).do_fourier.getD (ds.idxOf d) 0 = q.do_fourier.getD (q.position.dirs.idxOf d) 0 := by
    rw [do_fourier_sub hq p hds]
    simp [sub, relDirs, hi]
  have e2 : entryOf (subQuad q p ds).position.cov (ds.idxOf d) (ds.idxOf d) =
      entryOf q.position.cov (q.position.dirs.idxOf d) (q.position.dirs.idxOf d) := by
    rw [subQuad, subPos, assemble, entryOf_diagMat _ (by simpa) (by simpa), if_pos rfl]
    simp [dirData, hi]
  rw [qStep, dStep, e0, e1, e2, dIdx_inside (by rw [hq.pos.dirs]; exact hJ) hn h hds]
  congr 2
  apply dCoef_congr
  simp [hi, at']

theorem prod_change {α : Type} [DecidableEq α] {l : List α} (hn : l.Nodup) {a : α} (ha : a ∈ l) {f g : α → ℝ} {c : ℝ} (h1 : f a = c * g a)
    (h2 : ∀ b ∈ l, b ≠ a → f b = g b) : (l.map f).prod = c * (l.map g).prod := by
  rw [← List.prod_toFinset f hn, ← List.prod_toFinset g hn, ← Finset.mul_prod_erase _ _ (List.mem_toFinset.2 ha),
    ← Finset.mul_prod_erase _ g (List.mem_toFinset.2 ha), h1, mul_assoc]
  congr 2
  apply Finset.prod_congr rfl
  intro b hb
  exact h2 b (List.mem_toFinset.1 (Finset.mem_erase.1 hb).2) (Finset.mem_erase.1 hb).1

/-- Each derivative acts in the block of its direction. -/
theorem qSteps_blocks {q : HQuad F} (hq : QuadOk q) {args p : Product F} {bs : List (Finset ℕ)}
    (h : BlocksOk q.position.dirs.toFinset args p bs) (c : ℝ) : ∀ (ds : List ℕ), (∀ d ∈ ds, d ∈ q.position.dirs) →
    ∀ (E : List ℕ → ℝ) (Eb : Finset ℕ → List ℕ → ℝ), (∀ J : List ℕ, J.length = q.position.dim →
      (bs.map fun b => Eb b ((b.sort (· ≤ ·)).map (at' q.position.dirs J))).prod * c = E J) → ∀ J : List ℕ, J.length = q.position.dim →
      (bs.map fun b => (ds.filter fun d => d ∈ b.sort (· ≤ ·)).foldl (qStep (subQuad q p (b.sort (· ≤ ·)))) (Eb b)
        ((b.sort (· ≤ ·)).map (at' q.position.dirs J))).prod * c = ds.foldl (qStep q) E J
  | [], _, E, Eb, hE, J, hJ => by simpa using hE J hJ
  | d :: ds, hds, E, Eb, hE, J, hJ => by
    have hd := hds d (by simp)
    rw [List.foldl_cons, ← qSteps_blocks hq h c ds (fun x hx => hds x (by simp [hx])) (qStep q E d)
      (fun b => if d ∈ b.sort (· ≤ ·) then qStep (subQuad q p (b.sort (· ≤ ·))) (Eb b) d else Eb b) ?_ J hJ]
    · congr 2
      apply List.map_congr_left
      intro b hb
      by_cases hdb : d ∈ b.sort (· ≤ ·)
      · rw [List.filter_cons_of_pos (by simpa using hdb), List.foldl_cons, if_pos hdb]
      · rw [List.filter_cons_of_neg (by simpa using hdb), if_neg hdb]
    · intro J hJ
      obtain ⟨b0, hb0, hdb⟩ := (h.partition.cover d).1 (List.mem_toFinset.2 hd)
      rw [List.mem_toFinset] at hb0
      have hs : ∀ b ∈ bs, ∀ e ∈ b.sort (· ≤ ·), e ∈ q.position.dirs := fun b hb e he => List.mem_toFinset.1 (h.sort_mem hb e he)
      rw [qStep, dStep, ← hE _ (by rw [dIdx_length, hJ]), ← mul_assoc]
      congr 1
      apply prod_change h.nodup hb0
      · rw [if_pos ((Finset.mem_sort _).2 hdb), qStep_sub hq p (hs b0 hb0) ((sorted_sort b0).imp (ne_of_lt ·)) ((Finset.mem_sort _).2 hdb) _ hJ]
      · intro b hb hne
        have hnb : d ∉ b.sort (· ≤ ·) := fun h0 =>
          hne (h.partition.disjoint b (List.mem_toFinset.2 hb) b0 (List.mem_toFinset.2 hb0) d ((Finset.mem_sort _).1 h0) hdb)
        rw [if_neg hnb, dIdx_outside hd hnb (hs b hb)]

theorem qSteps_congr {q : HQuad F} {s : IndexSet} {degree : ℕ} : ∀ {ds : List ℕ},
    (∀ d ∈ ds, DClosed s q.position.dim degree q.do_fourier (q.position.dirs.idxOf d)) → ∀ {E E' : List ℕ → ℝ},
    (∀ J, InSet s q.position.dim degree J → E J = E' J) → ∀ J, InSet s q.position.dim degree J →
    ds.foldl (qStep q) E J = ds.foldl (qStep q) E' J
  | [], _, _, _, h, J, hJ => h J hJ
  | d :: ds, hc, E, E', h, J, hJ => by
    rw [List.foldl_cons, List.foldl_cons]
    refine qSteps_congr (fun x hx => hc x (List.mem_cons_of_mem d hx)) (fun J hJ => ?_) J hJ
    rw [qStep, dStep, qStep, dStep, h _ (dIdx_mem (hc d (by simp)) hJ)]

theorem Spec.DiffClosed.dirs {s : IndexSet} {degree : ℕ} {q : HQuad F} {ds : List ℕ} (h : DiffClosed s degree q ds) :
    ∀ d ∈ ds.filter fun d => d ∈ q.position.dirs, DClosed s q.position.dim degree q.do_fourier (q.position.dirs.idxOf d) := by
  intro d hd
  rw [List.mem_filter] at hd
  exact h d hd.1 (by simpa using hd.2)

theorem dformEntry_add (q : HQuad F) (v v' : (ℕ → ℝ) → ℝ) (ds I J : List ℕ) :
    dformEntry q (fun x => v x + v' x) ds I J = dformEntry q v ds I J + dformEntry q v' ds I J := by
  simp only [dformEntry, add_mul]
  exact quadrature_add _ _

section
variable [Interp F]

theorem dformEntry_sum (q : HQuad F) (t : Multiset (Product F)) (ds I J : List ℕ) :
    (t.map fun args => dformEntry q (productValue args) ds I J).sum =
      dformEntry q (fun x => (t.map fun args => productValue args x).sum) ds I J := by
  induction t using Multiset.induction_on with
  | empty => simp [dformEntry, quadrature]
  | cons a t ih =>
    rw [Multiset.map_cons, Multiset.sum_cons, ih, ← dformEntry_add]
    simp

theorem quad_varfd_as_ok (T : Type) [MatOps T ℝ] [MatArith T ℝ] [Convert (SpMat ℝ) T] [Stored T ℝ] [Meaning T ℝ] [LawfulMat T ℝ] [LawfulStored T ℝ]
    [LawfulArith T ℝ] [LawfulConvert (SpMat ℝ) T ℝ] {sparse : Bool} {slack : ℕ} {eig : Eig} (he : EigDiag eig) {q : HQuad F} (hq : QuadOk q)
    {s : IndexSet} {degree : ℕ} (hU : UsableTo s q.position.dim degree) (hz2 : Sized s q.position.dim (2 * degree)) (hd : DegreeOk slack s degree q.do_fourier)
    {L L2 : List (List ℕ)} (hL : IterOk s q.position.dim degree L) (hL2 : IterOk s q.position.dim (2 * degree) L2) {f : SFn F}
    (hfd : f.dirs = q.position.dirs) (hv : ∀ p ∈ f.terms, ∀ a ∈ p, ∀ d ∈ a.1, d ∈ f.dirs) {ds : List ℕ} (hc : DiffClosed s degree q ds) :
    quad_varfd_as T sparse slack eig degree s ds q f =
      .ok ⟨sparse, L.map fun I => L.map fun J => (ds.filter fun d => d ∈ q.position.dirs).foldl (qStep q) (keptForm q L2 f.value I) J,
        q.position, recDegree s degree, q.factor, s⟩ := by
  have h1 : 1 ≤ q.position.dim := Nat.one_le_iff_ne_zero.2 (PosOk.dim_pos hq.pos hq.dirs_ne)
  have hne : L ≠ [] := hL.runs.ne_nil
  have hform := quad_formOk hq hU hz2 hd
  have hLn := hL
  have hL2n := hL2
  rw [← hq.dim] at hLn hL2n
  obtain ⟨R, e, hR⟩ := quad_varf_mat_ok T he hq hform hLn hL2n hfd hv
  obtain ⟨R', e', hR'⟩ := varfdDirs_ok he hq (hU _ h1 le_rfl).toSized hL
    (ds := ds.filter fun d => d ∈ q.position.dirs) (by simp) hc.dirs hR
  rw [quad_varfd_as]
  rw [e, Out.ok_bind, rowsOf_list hne hR (G := keptForm q L2 f.value) (fun _ _ _ _ => rfl), Out.ok_bind,
      mkVarf_small (hU _ h1 le_rfl) hL (by simp), Out.ok_bind, e', Out.ok_bind,
      rowsOf_list hne hR' (G := fun I J => (ds.filter fun d => d ∈ q.position.dirs).foldl (qStep q) (keptForm q L2 f.value I) J)
        (fun _ _ _ _ => rfl), Out.ok_bind, mkVarf_small (hU _ h1 le_rfl) hL (by simp)]

theorem quad_varfd_ok {sparse : Bool} {slack : ℕ} {eig : Eig} (he : EigDiag eig) {q : HQuad F} (hq : QuadOk q)
    {s : IndexSet} {degree : ℕ} (hU : UsableTo s q.position.dim degree) (hz2 : Sized s q.position.dim (2 * degree)) (hd : DegreeOk slack s degree q.do_fourier)
    {L L2 : List (List ℕ)} (hL : IterOk s q.position.dim degree L) (hL2 : IterOk s q.position.dim (2 * degree) L2) {f : SFn F}
    (hfd : f.dirs = q.position.dirs) (hv : ∀ p ∈ f.terms, ∀ a ∈ p, ∀ d ∈ a.1, d ∈ f.dirs) {ds : List ℕ} (hc : DiffClosed s degree q ds) :
    quad_varfd sparse slack eig degree s ds q f =
      .ok ⟨sparse, L.map fun I => L.map fun J => (ds.filter fun d => d ∈ q.position.dirs).foldl (qStep q) (keptForm q L2 f.value I) J,
        q.position, recDegree s degree, q.factor, s⟩ := by
  rw [quad_varfd]
  split
  · exact quad_varfd_as_ok _ he hq hU hz2 hd hL hL2 hfd hv hc
  · exact quad_varfd_as_ok _ he hq hU hz2 hd hL hL2 hfd hv hc

end

end Hermipy
