import Verif.Lemmas.DropError

/-! # Forms computed block by block when small coefficients are dropped -/

namespace Hermipy
open Spec
variable {F : Type}

/-- The error of a product over blocks of directions: `blocks` divide the directions, each factor depends on the directions of one block, and each
factor of the product is right up to `dropBound`. `L2 n` is the set for twice the degree in `n` directions. -/
noncomputable def blockBound [Interp F] (q : HQuad F) (p : Product F) (blocks : List (Finset ℕ)) (L2 : ℕ → List (List ℕ)) (args : Product F) (I J : List ℕ) : ℝ :=
  |productValue (constPart args) fun _ => 0| *
    ((blocks.map fun b => |formEntry (subQuad q p (b.sort (· ≤ ·))) (productValue (blockPart args b)) ((b.sort (· ≤ ·)).map (at' q.position.dirs I))
        ((b.sort (· ≤ ·)).map (at' q.position.dirs J))| +
      dropBound (subQuad q p (b.sort (· ≤ ·))) (L2 (b.sort (· ≤ ·)).length) (productValue (blockPart args b))
        ((b.sort (· ≤ ·)).map (at' q.position.dirs I)) ((b.sort (· ≤ ·)).map (at' q.position.dirs J))).prod -
    (blocks.map fun b => |formEntry (subQuad q p (b.sort (· ≤ ·))) (productValue (blockPart args b)) ((b.sort (· ≤ ·)).map (at' q.position.dirs I))
        ((b.sort (· ≤ ·)).map (at' q.position.dirs J))|).prod)

/-- Two partitions, each finer than the other, are the same. -/
theorem finer_antisymm {U : Finset ℕ} {P Q : Finset (Finset ℕ)} (hP : IsPartition U P) (h1 : Finer P Q) (h2 : Finer Q P) : P ⊆ Q := by
  intro b hb
  obtain ⟨c, hc, hbc⟩ := h1 b hb
  obtain ⟨b', hb', hcb⟩ := h2 c hc
  obtain ⟨x, hx⟩ := hP.nonempty b hb
  have e := hP.disjoint b hb b' hb' x hx (hcb (hbc hx))
  subst e
  rwa [Finset.Subset.antisymm hbc hcb]

theorem BlocksOk.perm {U : Finset ℕ} {args p : Product F} {bs cs : List (Finset ℕ)} (hb : BlocksOk U args p bs) (hc : BlocksOk U args p cs) :
    bs.Perm cs := by
  have f1 : Finer bs.toFinset cs.toFinset := hb.least _ hc.partition (by simpa using hc.inside) (by simpa using hc.fac)
  have f2 : Finer cs.toFinset bs.toFinset := hc.least _ hb.partition (by simpa using hb.inside) (by simpa using hb.fac)
  have e : bs.toFinset = cs.toFinset :=
    Finset.Subset.antisymm (finer_antisymm hb.partition f1 f2) (finer_antisymm hc.partition f2 f1)
  rw [List.perm_ext_iff_of_nodup hb.nodup hc.nodup]
  intro a
  rw [← List.mem_toFinset, e, List.mem_toFinset]

theorem abs_prod_map {β : Type} (e : β → ℝ) : ∀ l : List β, |(l.map e).prod| = (l.map fun b => |e b|).prod
  | [] => by simp
  | b :: l => by rw [List.map_cons, List.map_cons, List.prod_cons, List.prod_cons, abs_mul, abs_prod_map e l]

/-- The error of a product. -/
theorem prod_close {β : Type} {a e δ : β → ℝ} : ∀ {l : List β}, (∀ b ∈ l, |a b - e b| ≤ δ b) →
    |(l.map a).prod - (l.map e).prod| ≤ (l.map fun b => |e b| + δ b).prod - (l.map fun b => |e b|).prod
  | [], _ => by simp
  | b :: l, h => by
    have h1 := prod_close (l := l) fun c hc => h c (by simp [hc])
    have h0 := h b (by simp)
    have hE : |(l.map e).prod| = (l.map fun b => |e b|).prod := abs_prod_map e l
    have ha : |a b| ≤ |e b| + δ b := by
      have := abs_sub_abs_le_abs_sub (a b) (e b)
      linarith
    simp only [List.map_cons, List.prod_cons]
    have e1 : a b * (l.map a).prod - e b * (l.map e).prod = a b * ((l.map a).prod - (l.map e).prod) + (a b - e b) * (l.map e).prod := by ring
    rw [e1]
    refine (abs_add_le _ _).trans ?_
    rw [abs_mul, abs_mul, hE]
    have hQ : 0 ≤ (l.map fun b => |e b|).prod := hE ▸ abs_nonneg _
    have h2 := mul_le_mul ha h1 (abs_nonneg _) ((abs_nonneg _).trans ha)
    have h3 := mul_le_mul_of_nonneg_right h0 hQ
    nlinarith

section
variable [Interp F] [DecidableEq F]

/-- The form computed block by block, whatever is dropped. -/
theorem quad_varf_tensorize_kept {order : ℕ → Finset (Finset ℕ) → List (Finset ℕ)} (ho : OrderOk order) (k : ℕ) {sparse : Bool} {slack : ℕ}
    {eig : Eig} (he : EigDiag eig) {q : HQuad F} (hq : QuadOk q) {p : Product F} (hp : q.factor.terms = {p}) {s : IndexSet} {degree : ℕ}
    (hU : UsableTo s q.position.dim degree) (hz2 : Sized s q.position.dim (2 * degree)) (hds : DegreeOk slack s degree q.do_fourier) {f : SFn F} (hf : SFnOk f)
    (hd : f.dirs = q.position.dirs) (hne : f.terms ≠ 0) {L2 : ℕ → List (List ℕ)}
    (hL2 : ∀ n, 1 ≤ n → n ≤ q.position.dim → IterOk s n (2 * degree) (L2 n)) {L : List (List ℕ)} (hL : IterOk s q.position.dim degree L) :
    ∃ T : Product F → List ℕ → List ℕ → ℝ,
      (∀ args, ∀ bs, BlocksOk q.position.dirs.toFinset args p bs → ∀ m n,
        T args m n = (bs.map fun b => keptForm (subQuad q p (b.sort (· ≤ ·))) (L2 (b.sort (· ≤ ·)).length) (productValue (blockPart args b))
          ((b.sort (· ≤ ·)).map (at' q.position.dirs m)) ((b.sort (· ≤ ·)).map (at' q.position.dirs n))).prod *
          productValue (constPart args) (fun _ => 0)) ∧
      quad_varf_tensorize order k sparse slack eig degree s q f = .ok ⟨sparse, L.map fun I => L.map fun J => (f.terms.map fun args => T args I J).sum,
        q.position, recDegree s degree, q.factor, s⟩ := by
  classical
  let G : Product F → List ℕ → List ℕ → List (Finset ℕ) → ℝ := fun args m n bs =>
    (bs.map fun b => keptForm (subQuad q p (b.sort (· ≤ ·))) (L2 (b.sort (· ≤ ·)).length) (productValue (blockPart args b))
      ((b.sort (· ≤ ·)).map (at' q.position.dirs m)) ((b.sort (· ≤ ·)).map (at' q.position.dirs n))).prod *
      productValue (constPart args) (fun _ => 0)
  let T : Product F → List ℕ → List ℕ → ℝ := fun args m n =>
    if h : ∃ bs, BlocksOk q.position.dirs.toFinset args p bs then G args m n h.choose else 0
  have hT : ∀ args, ∀ bs, BlocksOk q.position.dirs.toFinset args p bs → ∀ m n, T args m n = G args m n bs := by
    intro args bs hb m n
    have h : ∃ bs, BlocksOk q.position.dirs.toFinset args p bs := ⟨bs, hb⟩
    show (if h : ∃ bs, BlocksOk q.position.dirs.toFinset args p bs then G args m n h.choose else 0) = _
    rw [dif_pos h]
    have hperm := h.choose_spec.perm hb
    simp only [G]
    rw [(hperm.map _).prod_eq]
  refine ⟨T, hT, ?_⟩
  exact varf_tensorize_gen ho k (sparse := sparse) (func := quad_varf sparse slack eig degree s) hq hp hU hf hd hne hL
    (C := fun args b => keptForm (subQuad q p (b.sort (· ≤ ·))) (L2 (b.sort (· ≤ ·)).length) (productValue (blockPart args b)))
    (by
      intro args hargs bs hb b hbb Lb hLb
      have hB := blockFacts hq hp hds hb hbb
      have hv : (⟨b.sort (· ≤ ·), {blockPart args b}⟩ : SFn F).value = productValue (blockPart args b) := by funext x; simp [SFn.value]
      rw [quad_varf_ok he hB.ok (by rw [hB.dim]; exact fun n h h' => hU n h (h'.trans hB.le)) (by rw [hB.dim]; exact hz2.sub hB.one hB.le) hB.degree
        (by rw [hB.dim]; exact hLb) (by rw [hB.dim]; exact hL2 _ hB.one hB.le) rfl hB.vars, hv])
    (T := T) (fun args _ bs hb m _ n _ => (hT args bs hb m n).symm)

end

end Hermipy
