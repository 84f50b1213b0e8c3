import Verif.Lemmas.DropBlocks

/-! # Derivative forms computed block by block when small coefficients are dropped -/

namespace Hermipy
open Spec
variable {F : Type} [Interp F]

/-- As `blockBound`, when the derivative of the basis function of `J` in the block `b` is `c b` times the basis function of `J' b`. -/
noncomputable def blockBoundD (q : HQuad F) (p : Product F) (blocks : List (Finset ℕ)) (L2 : ℕ → List (List ℕ)) (args : Product F) (I : List ℕ)
    (c : Finset ℕ → ℝ) (J' : Finset ℕ → List ℕ) : ℝ :=
  |productValue (constPart args) fun _ => 0| *
    ((blocks.map fun b => |c b * formEntry (subQuad q p (b.sort (· ≤ ·))) (productValue (blockPart args b))
        ((b.sort (· ≤ ·)).map (at' q.position.dirs I)) (J' b)| +
      |c b| * dropBound (subQuad q p (b.sort (· ≤ ·))) (L2 (b.sort (· ≤ ·)).length) (productValue (blockPart args b))
        ((b.sort (· ≤ ·)).map (at' q.position.dirs I)) (J' b)).prod -
    (blocks.map fun b => |c b * formEntry (subQuad q p (b.sort (· ≤ ·))) (productValue (blockPart args b))
      ((b.sort (· ≤ ·)).map (at' q.position.dirs I)) (J' b)|).prod)

theorem dformEntry_blocks {q : HQuad F} (hq : QuadOk q) (hvar : VarPos q.position) {args p : Product F} {bs : List (Finset ℕ)}
    (hb : BlocksOk q.position.dirs.toFinset args p bs) (ds I : List ℕ) {J : List ℕ} (hJ : J.length = q.position.dim) :
    (bs.map fun b => (ds.filter fun d => d ∈ b.sort (· ≤ ·)).foldl (qStep (subQuad q p (b.sort (· ≤ ·))))
      (formEntry (subQuad q p (b.sort (· ≤ ·))) (productValue (blockPart args b)) ((b.sort (· ≤ ·)).map (at' q.position.dirs I)))
      ((b.sort (· ≤ ·)).map (at' q.position.dirs J))).prod * productValue (constPart args) (fun _ => 0) =
    dformEntry q (productValue args) (ds.filter fun d => d ∈ q.position.dirs) I J := by
  have h := qSteps_blocks hq hb (productValue (constPart args) (fun _ => 0)) (ds.filter fun d => d ∈ q.position.dirs) (by simp)
    (formEntry q (productValue args) I) (fun b => formEntry (subQuad q p (b.sort (· ≤ ·))) (productValue (blockPart args b))
      ((b.sort (· ≤ ·)).map (at' q.position.dirs I))) (fun J _ => formEntry_blocks hq hb I J) J hJ
  rw [fold_formEntry hq hvar _ (by simp) I hJ] at h
  rw [← h]
  congr 2
  apply List.map_congr_left
  intro b hbb
  have hfil : ((ds.filter fun d => d ∈ q.position.dirs).filter fun d => d ∈ b.sort (· ≤ ·)) = ds.filter fun d => d ∈ b.sort (· ≤ ·) := by
    rw [List.filter_filter]
    apply List.filter_congr
    intro d _
    by_cases h0 : d ∈ b.sort (· ≤ ·)
    · have := List.mem_toFinset.1 (hb.sort_mem hbb d h0)
      simp only [h0, this, decide_true, Bool.and_self]
    · simp only [h0, decide_false, Bool.false_and]
  rw [hfil]

variable [DecidableEq F]

/-- The derivative form computed block by block, whatever is dropped. -/
theorem quad_varfd_tensorize_kept {order : ℕ → Finset (Finset ℕ) → List (Finset ℕ)} (ho : OrderOk order) (k : ℕ) {sparse : Bool} {slack : ℕ}
    {eig : Eig} (he : EigDiag eig) {q : HQuad F} (hq : QuadOk q) {p : Product F} (hp : q.factor.terms = {p}) {s : IndexSet} {degree : ℕ}
    (hU : UsableTo s q.position.dim degree) (hz2 : Sized s q.position.dim (2 * degree)) (hds : DegreeOk slack s degree q.do_fourier) {f : SFn F} (hf : SFnOk f)
    (hd : f.dirs = q.position.dirs) (hne : f.terms ≠ 0) {ds : List ℕ}
    (hc : ∀ args ∈ f.terms, ∀ bs, BlocksOk q.position.dirs.toFinset args p bs → ∀ b ∈ bs, DiffClosed s degree (subQuad q p (b.sort (· ≤ ·))) ds)
    {L2 : ℕ → List (List ℕ)}
    (hL2 : ∀ n, 1 ≤ n → n ≤ q.position.dim → IterOk s n (2 * degree) (L2 n)) {L : List (List ℕ)} (hL : IterOk s q.position.dim degree L) :
    ∃ T : Product F → List ℕ → List ℕ → ℝ,
      (∀ args, ∀ bs, BlocksOk q.position.dirs.toFinset args p bs → ∀ m n,
        T args m n = (bs.map fun b => (ds.filter fun d => d ∈ b.sort (· ≤ ·)).foldl (qStep (subQuad q p (b.sort (· ≤ ·))))
          (keptForm (subQuad q p (b.sort (· ≤ ·))) (L2 (b.sort (· ≤ ·)).length) (productValue (blockPart args b))
          ((b.sort (· ≤ ·)).map (at' q.position.dirs m))) ((b.sort (· ≤ ·)).map (at' q.position.dirs n))).prod *
          productValue (constPart args) (fun _ => 0)) ∧
      quad_varfd_tensorize order k sparse slack eig degree s ds q f = .ok ⟨sparse, L.map fun I => L.map fun J => (f.terms.map fun args => T args I J).sum,
        q.position, recDegree s degree, q.factor, s⟩ := by
  classical
  let G : Product F → List ℕ → List ℕ → List (Finset ℕ) → ℝ := fun args m n bs =>
    (bs.map fun b => (ds.filter fun d => d ∈ b.sort (· ≤ ·)).foldl (qStep (subQuad q p (b.sort (· ≤ ·))))
      (keptForm (subQuad q p (b.sort (· ≤ ·))) (L2 (b.sort (· ≤ ·)).length) (productValue (blockPart args b))
      ((b.sort (· ≤ ·)).map (at' q.position.dirs m))) ((b.sort (· ≤ ·)).map (at' q.position.dirs n))).prod *
      productValue (constPart args) (fun _ => 0)
  let T : Product F → List ℕ → List ℕ → ℝ := fun args m n =>
    if h : ∃ bs, BlocksOk q.position.dirs.toFinset args p bs then G args m n h.choose else 0
  have hT : ∀ args, ∀ bs, BlocksOk q.position.dirs.toFinset args p bs → ∀ m n, T args m n = G args m n bs := by
    intro args bs hb m n
    have h : ∃ bs, BlocksOk q.position.dirs.toFinset args p bs := ⟨bs, hb⟩
    show (if h : ∃ bs, BlocksOk q.position.dirs.toFinset args p bs then G args m n h.choose else 0) = _
    rw [dif_pos h]
    have hperm := h.choose_spec.perm hb
    simp only [G]
    rw [(hperm.map _).prod_eq]
  refine ⟨T, hT, ?_⟩
  exact varf_tensorize_gen ho k (sparse := sparse) (func := quad_varfd sparse slack eig degree s ds) hq hp hU hf hd hne hL
    (C := fun args b m n => (ds.filter fun d => d ∈ b.sort (· ≤ ·)).foldl (qStep (subQuad q p (b.sort (· ≤ ·))))
      (keptForm (subQuad q p (b.sort (· ≤ ·))) (L2 (b.sort (· ≤ ·)).length) (productValue (blockPart args b)) m) n)
    (by
      intro args hargs bs hb b hbb Lb hLb
      have hB := blockFacts hq hp hds hb hbb
      have hv : (⟨b.sort (· ≤ ·), {blockPart args b}⟩ : SFn F).value = productValue (blockPart args b) := by funext x; simp [SFn.value]
      rw [quad_varfd_ok he hB.ok (by rw [hB.dim]; exact fun n h h' => hU n h (h'.trans hB.le)) (by rw [hB.dim]; exact hz2.sub hB.one hB.le) hB.degree
        (by rw [hB.dim]; exact hLb) (by rw [hB.dim]; exact hL2 _ hB.one hB.le) rfl hB.vars (hc args hargs bs hb b hbb), hv]
      rfl)
    (T := T) (fun args _ bs hb m _ n _ => (hT args bs hb m n).symm)

/-- The error of one summand. -/
theorem tensorize_term_close {slack : ℕ} {q : HQuad F} (hq : QuadOk q) (hvar : VarPos q.position) {p : Product F} (hp : q.factor.terms = {p}) {s : IndexSet} {degree : ℕ}
    (hU : UsableTo s q.position.dim degree) (hz2 : Sized s q.position.dim (2 * degree)) (hds : DegreeOk slack s degree q.do_fourier)
    {ds : List ℕ} {args : Product F} {bs : List (Finset ℕ)} (hb : BlocksOk q.position.dirs.toFinset args p bs)
    (hc : ∀ b ∈ bs, DiffClosed s degree (subQuad q p (b.sort (· ≤ ·))) ds)
    (hcl : ∀ b ∈ bs, Closed s b.card degree (subQuad q p (b.sort (· ≤ ·))).do_fourier) {L2 : ℕ → List (List ℕ)}
    (hL2 : ∀ n, 1 ≤ n → n ≤ q.position.dim → IterOk s n (2 * degree) (L2 n)) {I J : List ℕ}
    (hI : InSet s q.position.dim degree I) (hJ : InSet s q.position.dim degree J) :
    ∃ (c : Finset ℕ → ℝ) (J' : Finset ℕ → List ℕ),
      (∀ b ∈ bs, InSet s b.card degree (J' b) ∧ Derives (subQuad q p (b.sort (· ≤ ·))) (ds.filter fun d => d ∈ b)
        ((b.sort (· ≤ ·)).map (at' q.position.dirs J)) (c b) (J' b)) ∧
      |(bs.map fun b => (ds.filter fun d => d ∈ b.sort (· ≤ ·)).foldl (qStep (subQuad q p (b.sort (· ≤ ·))))
          (keptForm (subQuad q p (b.sort (· ≤ ·))) (L2 (b.sort (· ≤ ·)).length) (productValue (blockPart args b))
          ((b.sort (· ≤ ·)).map (at' q.position.dirs I))) ((b.sort (· ≤ ·)).map (at' q.position.dirs J))).prod *
          productValue (constPart args) (fun _ => 0) - dformEntry q (productValue args) (ds.filter fun d => d ∈ q.position.dirs) I J| ≤
        blockBoundD q p bs L2 args I c J' := by
  have hcard : ∀ b : Finset ℕ, (b.sort (· ≤ ·)).length = b.card := fun b => Finset.length_sort _
  have hdim : ∀ b ∈ bs, (subQuad q p (b.sort (· ≤ ·))).nodes.length = b.card := fun b hbb => by
    have hB := blockFacts hq hp hds hb hbb
    rw [hB.ok.dim, hB.dim, hcard]
  have hin : ∀ b ∈ bs, ∀ {I : List ℕ}, InSet s q.position.dim degree I →
      InSet s b.card degree ((b.sort (· ≤ ·)).map (at' q.position.dirs I)) := by
    intro b hbb I hI
    have hB := blockFacts hq hp hds hb hbb
    have h : InSet s (b.sort (· ≤ ·)).length degree (along q.position.dirs (b.sort (· ≤ ·)) I) :=
      inSet_along hq.sorted (sorted_sort b) (hb.sort_ne hbb) hB.mem (by rw [hq.pos.dirs]; exact hI)
    rw [← hcard]
    exact h
  have hone : ∀ b ∈ bs, ∃ (c : ℝ) (J' : List ℕ), InSet s b.card degree J' ∧
      (∀ E : List ℕ → ℝ, (ds.filter fun d => d ∈ b.sort (· ≤ ·)).foldl (qStep (subQuad q p (b.sort (· ≤ ·)))) E
        ((b.sort (· ≤ ·)).map (at' q.position.dirs J)) = c * E J') ∧
      Derives (subQuad q p (b.sort (· ≤ ·))) (ds.filter fun d => d ∈ b) ((b.sort (· ≤ ·)).map (at' q.position.dirs J)) c J' := by
    intro b hbb
    have hB := blockFacts hq hp hds hb hbb
    have hbd : (subQuad q p (b.sort (· ≤ ·))).position.dim = b.card := hB.dim.trans (hcard b)
    obtain ⟨c, J', h1, h2, h3⟩ := qSteps_one (s := s) (degree := degree) hB.ok.pos (ds.filter fun d => d ∈ (subQuad q p (b.sort (· ≤ ·))).position.dirs) (by simp)
      (hc b hbb).dirs _ (by rw [hbd]; exact hin b hbb hJ)
    rw [hbd] at h1
    have hdirs : (subQuad q p (b.sort (· ≤ ·))).position.dirs = b.sort (· ≤ ·) := rfl
    rw [hdirs] at h2 h3
    have hfil : (ds.filter fun d => d ∈ b.sort (· ≤ ·)) = ds.filter fun d => d ∈ b := by
      apply List.filter_congr
      intro d _
      simp
    rw [hfil] at h3
    exact ⟨c, J', h1, h2, h3⟩
  choose! c J' h1 h2 h3 using hone
  refine ⟨c, J', fun b hbb => ⟨h1 b hbb, h3 b hbb⟩, ?_⟩
  rw [← dformEntry_blocks hq hvar hb ds I (inSet_length hJ), ← sub_mul, abs_mul, blockBoundD, mul_comm]
  refine mul_le_mul_of_nonneg_left ?_ (abs_nonneg _)
  have e1 : ∀ E : Finset ℕ → List ℕ → ℝ, (bs.map fun b => (ds.filter fun d => d ∈ b.sort (· ≤ ·)).foldl (qStep (subQuad q p (b.sort (· ≤ ·))))
      (E b) ((b.sort (· ≤ ·)).map (at' q.position.dirs J))) = bs.map fun b => c b * E b (J' b) :=
    fun E => List.map_congr_left fun b hbb => h2 b hbb _
  rw [e1 fun b => keptForm (subQuad q p (b.sort (· ≤ ·))) (L2 (b.sort (· ≤ ·)).length) (productValue (blockPart args b))
      ((b.sort (· ≤ ·)).map (at' q.position.dirs I)),
    e1 fun b => formEntry (subQuad q p (b.sort (· ≤ ·))) (productValue (blockPart args b)) ((b.sort (· ≤ ·)).map (at' q.position.dirs I))]
  refine prod_close fun b hbb => ?_
  have hB := blockFacts hq hp hds hb hbb
  rw [← mul_sub, abs_mul]
  refine mul_le_mul_of_nonneg_left ?_ (abs_nonneg _)
  refine keptForm_close (quad_formOk hB.ok (by rw [hB.dim]; exact fun n h h' => hU n h (h'.trans hB.le))
    (by rw [hB.dim]; exact hz2.sub hB.one hB.le) hB.degree) ?_ _ ?_ ?_ ?_
  · rw [hdim b hbb]; exact hcl b hbb
  · rw [hB.ok.dim, hB.dim]; exact hL2 _ hB.one hB.le
  · rw [hdim b hbb]; exact hin b hbb hI
  · rw [hdim b hbb]; exact h1 b hbb

end Hermipy
