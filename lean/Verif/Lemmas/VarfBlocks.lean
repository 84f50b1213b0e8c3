import Verif.Lemmas.VarfTensorize

/-! # Forms computed factor by factor -/

namespace Hermipy
open Spec
variable {F : Type}

/-- The form on the directions `ds` of the quadrature with the entries `C`. -/
noncomputable def blockVarf (sparse : Bool) (s : IndexSet) (degree : ℕ) (LL : ℕ → List (List ℕ)) (q : HQuad F) (p : Product F) (ds : List ℕ)
    (C : List ℕ → List ℕ → ℝ) : HVarf (SFn F) :=
  ⟨sparse, (LL ds.length).map fun m => (LL ds.length).map fun n => C m n, subPos q.position ds, recDegree s degree,
    ⟨ds, {subProduct p (q.position.dirs.headD 0) ds}⟩, s⟩

theorem foldTerms_single {ι : Type} (A : ι → HVarf (SFn F)) (t : ι → Product F) : ∀ (xs : List ι) (u : Product F),
    (∀ x ∈ xs, (A x).factor.terms = {t x}) →
    (xs.map A).foldl (fun t b => mulTerms t b.factor.terms) {u} = {u + (xs.map t).sum}
  | [], u, _ => by simp
  | x :: xs, u, h => by
    rw [List.map_cons, List.foldl_cons, h x (by simp)]
    have : mulTerms {u} {t x} = {u + t x} := by simp [mulTerms]
    rw [this, foldTerms_single A t xs _ fun y hy => h y (by simp [hy])]
    simp [add_assoc]

/-- The product of forms on the blocks of a division of the directions. -/
theorem block_varf_tensorize {sparse : Bool} {s : IndexSet} {degree : ℕ} {LL : ℕ → List (List ℕ)} {q : HQuad F} (hq : QuadOk q)
    {args p : Product F} (hp : q.factor.terms = {p}) (hU : UsableTo s q.position.dim degree)
    (hLL : ∀ n, 1 ≤ n → n ≤ q.position.dim → IterOk s n degree (LL n)) {bs : List (Finset ℕ)} (h : BlocksOk q.position.dirs.toFinset args p bs)
    (Cs : Finset ℕ → List ℕ → List ℕ → ℝ) :
    varf_tensorize sparse (bs.map fun b => blockVarf sparse s degree LL q p (b.sort (· ≤ ·)) (Cs b)) =
      .ok ⟨sparse, (LL q.position.dim).map fun m => (LL q.position.dim).map fun n => (bs.map fun b => Cs b ((b.sort (· ≤ ·)).map (at' q.position.dirs m))
        ((b.sort (· ≤ ·)).map (at' q.position.dirs n))).prod, q.position, recDegree s degree, q.factor, s⟩ := by
  have hnq : q.position.dirs.Nodup := hq.sorted.imp (ne_of_lt ·)
  have h1 : 1 ≤ q.position.dim := Nat.one_le_iff_ne_zero.2 (PosOk.dim_pos hq.pos hq.dirs_ne)
  have iD := hLL _ h1 le_rfl
  have hperm := h.flatten_perm hnq
  have hl : ∀ b ∈ bs, 1 ≤ (b.sort (· ≤ ·)).length ∧ (b.sort (· ≤ ·)).length ≤ q.position.dim := by
    intro b hb
    refine ⟨List.length_pos_iff.2 (h.sort_ne hb), ?_⟩
    rw [Finset.length_sort]
    refine (Finset.card_le_card (t := q.position.dirs.toFinset) fun d hd => h.sort_mem hb d ((Finset.mem_sort _).2 hd)).trans ?_
    rw [List.toFinset_card_of_nodup hnq, hq.pos.dirs]
  by_cases h2 : 2 ≤ bs.length
  · obtain ⟨P, -, okP, dgP, dirsP, hasP, e⟩ := varf_tensorize_ok (xs := bs)
      (A := fun b => blockVarf sparse s degree LL q p (b.sort (· ≤ ·)) (Cs b)) h2 (s := s) (degree := degree) (d0 := recDegree s degree)
      (fun _ _ => rfl) (fun _ _ => rfl) (fun b _ => subPos_ok _ (sorted_sort b)) (fun b _ => (subPos_diagonal _ _).is_diag)
      (fun b _ => sorted_sort b) (fun b hb => h.sort_ne hb) hq.sorted hperm
      (by rw [hq.pos.dirs]; exact (hU _ h1 le_rfl).toSized)
      (fun k hk hk' => hU k hk (by rw [hq.pos.dirs] at hk'; omega))
      (Ls := fun b => LL (b.sort (· ≤ ·)).length) (fun b hb => by
        rw [show (blockVarf sparse s degree LL q p (b.sort (· ≤ ·)) (Cs b)).position.dim = (b.sort (· ≤ ·)).length from subPos_dim _ _]
        exact hLL _ (hl b hb).1 (hl b hb).2) (G := Cs) (fun _ _ => rfl)
      (by
        intro b hb t ht v hv
        obtain ⟨f, hf, hvf⟩ := hv
        have ht' : t = subProduct p (q.position.dirs.headD 0) (b.sort (· ≤ ·)) := by simpa [blockVarf] using ht
        rw [ht'] at hf
        exact subProduct_vars (h.not_couples hb) f hf v hvf)
      (by rw [hq.pos.dirs]; exact iD) sparse
    have hP : P = q.position := by
      refine position_ext okP hq.pos dgP hq.diag dirsP ?_
      intro d x hx
      obtain ⟨b, hb, hbx⟩ := (hasP d x).1 hx
      obtain ⟨h1, rfl⟩ := subPos_has.1 hbx
      exact dirData_has hq.pos (List.mem_toFinset.1 (h.sort_mem hb d h1))
    subst hP
    rw [e, allTerms, foldTerms_single (fun b => blockVarf sparse s degree LL q p (b.sort (· ≤ ·)) (Cs b))
      (fun b => subProduct p (q.position.dirs.headD 0) (b.sort (· ≤ ·))) bs 0 (fun _ _ => rfl), zero_add, subProduct_sum hq hp h,
      mkVarf_small (hU _ h1 le_rfl) iD (by simp), ← hp]
    simp only [blockVarf, subPos_dirs]
    congr 2
    rw [← hq.factorDirs]
  · match bs, h, h2 with
    | [], h, _ =>
      obtain ⟨d, ds, hd⟩ := List.exists_cons_of_ne_nil hq.dirs_ne
      obtain ⟨b, hb, -⟩ := (h.partition.cover d).1 (by rw [hd]; simp)
      simp at hb
    | [b], h, _ =>
      have hb : b = q.position.dirs.toFinset := by
        ext x
        rw [h.partition.cover]
        simp
      have hbs : b.sort (· ≤ ·) = q.position.dirs := by rw [hb, sort_toFinset hq.sorted]
      rw [List.map_cons, List.map_nil, varf_tensorize, hbs, blockVarf, hq.pos.dirs, subPos_full hq.pos hq.diag hq.sorted, subProduct_full hq hp,
        ← hp, ← hq.factorDirs]
      congr 2
      apply List.map_congr_left
      intro m hm
      apply List.map_congr_left
      intro n hn
      have em : q.factor.dirs.map (at' q.factor.dirs m) = m := by
        rw [hq.factorDirs]
        exact along_self hnq (by rw [hq.pos.dirs]; exact inSet_length ((iD.mem m).1 hm))
      have en : q.factor.dirs.map (at' q.factor.dirs n) = n := by
        rw [hq.factorDirs]
        exact along_self hnq (by rw [hq.pos.dirs]; exact inSet_length ((iD.mem n).1 hn))
      rw [hq.factorDirs] at em en
      simp only [List.map_cons, List.map_nil, List.prod_cons, List.prod_nil, mul_one, hbs, hq.factorDirs, em, en]
    | _ :: _ :: _, _, h2 => simp at h2

theorem varf_add_small {Φ : Type} [DecidableEq Φ] {sparse : Bool} {u v : List ℕ → List ℕ → ℝ} {p : Position} {factor : Φ} {s : IndexSet} {d : ℕ}
    {L : List IVec} (hu : Usable s p.dim d) (hL : IterOk s p.dim d L) :
    varf_add ⟨sparse, L.map fun m => L.map fun n => u m n, p, recDegree s d, factor, s⟩
      ⟨sparse, L.map fun m => L.map fun n => v m n, p, recDegree s d, factor, s⟩ =
    .ok ⟨sparse, L.map fun m => L.map fun n => u m n + v m n, p, recDegree s d, factor, s⟩ := by
  rw [varf_add, if_neg (by simpa using Props.pos_eq_self _)]
  cases sparse with
  | true =>
    simp only [Bool.or_self, if_true, Bool.and_self]
    rw [sparseAdd, if_pos (by simp [List.map_map, Function.comp_def]), Out.ok_bind, mkVarf_small hu hL (by simp)]
    simp [List.zipWith_map, List.zipWith_self]
  | false =>
    simp only [Bool.or_self, Bool.false_eq_true, if_false, Bool.and_self]
    rw [broadcast2, if_pos (by simp), List.zip_map', List.mapM_map, mapM_ok (g := fun m => L.map fun n => u m n + v m n), Out.ok_bind,
      mkVarf_small hu hL (by simp)]
    intro m _
    rw [Function.comp_apply, broadcast, if_pos (by simp)]
    simp [List.zipWith_map, List.zipWith_self]

section
variable [Interp F] [DecidableEq F]

/-- A form computed factor by factor: the sum over the summands of the function of the products of the entries for the blocks. -/
theorem varf_tensorize_gen {order : ℕ → Finset (Finset ℕ) → List (Finset ℕ)} (ho : OrderOk order) (k : ℕ) {sparse : Bool}
    {func : HQuad F → SFn F → Out (HVarf (SFn F))} {q : HQuad F} (hq : QuadOk q) {p : Product F} (hp : q.factor.terms = {p}) {s : IndexSet}
    {degree : ℕ} (hU : UsableTo s q.position.dim degree) {f : SFn F} (hf : SFnOk f) (hd : f.dirs = q.position.dirs)
    (hne : f.terms ≠ 0) {L : List (List ℕ)} (hL : IterOk s q.position.dim degree L) {C : Product F → Finset ℕ → List ℕ → List ℕ → ℝ}
    (hfunc : ∀ args ∈ f.terms, ∀ bs, BlocksOk q.position.dirs.toFinset args p bs → ∀ b ∈ bs, ∀ Lb, IterOk s (b.sort (· ≤ ·)).length degree Lb →
      func (subQuad q p (b.sort (· ≤ ·))) ⟨b.sort (· ≤ ·), {blockPart args b}⟩ = .ok ⟨sparse, Lb.map fun m => Lb.map fun n => C args b m n,
        (subQuad q p (b.sort (· ≤ ·))).position, recDegree s degree, (subQuad q p (b.sort (· ≤ ·))).factor, s⟩)
    {T : Product F → List ℕ → List ℕ → ℝ}
    (hT : ∀ args ∈ f.terms, ∀ bs, BlocksOk q.position.dirs.toFinset args p bs → ∀ m ∈ L, ∀ n ∈ L,
      (bs.map fun b => C args b ((b.sort (· ≤ ·)).map (at' q.position.dirs m)) ((b.sort (· ≤ ·)).map (at' q.position.dirs n))).prod *
        productValue (constPart args) (fun _ => 0) = T args m n) :
    tensorize_at order k func (fun rs => varf_tensorize sparse (rs.map Prod.snd)) varf_mul_scalar varf_add q f =
      .ok ⟨sparse, L.map fun m => L.map fun n => (f.terms.map fun args => T args m n).sum, q.position, recDegree s degree, q.factor, s⟩ := by
  have hLL : ∃ LL : ℕ → List (List ℕ), ∀ n, 1 ≤ n → n ≤ q.position.dim → IterOk s n degree (LL n) := by
    have : ∀ n, ∃ L, 1 ≤ n → n ≤ q.position.dim → IterOk s n degree L := by
      intro n
      by_cases hn : 1 ≤ n ∧ n ≤ q.position.dim
      · obtain ⟨L, hL⟩ := iterOk_exists (hU _ hn.1 hn.2).toSized.fits'
        exact ⟨L, fun _ _ => hL⟩
      · exact ⟨[], fun h1 h2 => absurd ⟨h1, h2⟩ hn⟩
    choose LL hLL using this
    exact ⟨LL, hLL⟩
  obtain ⟨LL, hLL⟩ := hLL
  have h1 : 1 ≤ q.position.dim := Nat.one_le_iff_ne_zero.2 (PosOk.dim_pos hq.pos hq.dirs_ne)
  have hLd : LL q.position.dim = L := (hLL _ h1 le_rfl).unique hL
  have hnq : q.position.dirs.Nodup := hq.sorted.imp (ne_of_lt ·)
  obtain ⟨Lt, hLt, e⟩ := tensorize_at_ok ho k (func := func)
    (tens := fun rs => varf_tensorize sparse (rs.map Prod.snd)) (scale := varf_mul_scalar) (plus := varf_add) hq hp hf hd
    (v := fun args b => blockVarf sparse s degree LL q p (b.sort (· ≤ ·)) (C args b))
    (r := fun args => ⟨sparse, L.map fun m => L.map fun n => T args m n, q.position, recDegree s degree, q.factor, s⟩)
    (by
      intro args hargs bs hb b hbs
      have hl4 : (b.sort (· ≤ ·)).length ≤ q.position.dim := by
        rw [Finset.length_sort]
        refine (Finset.card_le_card (t := q.position.dirs.toFinset) fun d hd => hb.sort_mem hbs d ((Finset.mem_sort _).2 hd)).trans ?_
        rw [List.toFinset_card_of_nodup hnq, hq.pos.dirs]
      have hl1 : 1 ≤ (b.sort (· ≤ ·)).length := List.length_pos_iff.2 (hb.sort_ne hbs)
      exact hfunc args hargs bs hb b hbs _ (hLL _ hl1 hl4))
    (by
      intro args hargs bs hb
      refine ⟨_, by
        rw [List.map_map]
        exact block_varf_tensorize hq hp hU hLL hb (C args), ?_⟩
      rw [varf_mul_scalar, mkVarf_small (hU _ h1 le_rfl) hL (by simp [hLd]), hLd, List.map_map]
      congr 2
      apply List.map_congr_left
      intro m hm
      rw [Function.comp_apply, List.map_map]
      apply List.map_congr_left
      intro n hn
      rw [← hT args hargs bs hb m hm n hn]
      rfl)
  rw [e]
  have hval : ∀ m n, (f.terms.map fun args => T args m n).sum = (Lt.map fun args => T args m n).sum := by
    intro m n
    rw [← hLt, Multiset.map_coe, Multiset.sum_coe]
  have hfold : ∀ (l : List (Product F)) (v : List ℕ → List ℕ → ℝ),
      (l.map fun args => (⟨sparse, L.map fun m => L.map fun n => T args m n, q.position, recDegree s degree, q.factor, s⟩ : HVarf (SFn F))).foldlM
        varf_add ⟨sparse, L.map fun m => L.map fun n => v m n, q.position, recDegree s degree, q.factor, s⟩ =
      .ok ⟨sparse, L.map fun m => L.map fun n => v m n + (l.map fun args => T args m n).sum, q.position, recDegree s degree, q.factor, s⟩ := by
    intro l
    induction l with
    | nil => intro v; simp [pure]
    | cons a l ih =>
      intro v
      rw [List.map_cons, List.foldlM_cons, varf_add_small (hU _ h1 le_rfl) hL, Out.ok_bind, ih]
      simp only [List.map_cons, List.sum_cons, add_assoc]
  cases Lt with
  | nil => exact absurd (by simpa using hLt.symm) hne
  | cons a Lt =>
    simp only [List.map_cons]
    rw [hfold]
    congr 2
    apply List.map_congr_left
    intro m _
    apply List.map_congr_left
    intro n _
    rw [hval]
    simp

end

end Hermipy
