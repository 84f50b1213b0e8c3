import Verif.Spec.Form
import Verif.Lemmas.VarfBlocks
import Verif.Props.Varf

/-! # The forms of a quadrature -/

namespace Hermipy
open Spec
variable {F : Type}

/-- The entry that `varf` computes: the sum over the set for `2 * degree` of the coefficients that are kept times the means of triple
products. -/
noncomputable def keptForm (q : HQuad F) (L2 : List (List ℕ)) (v : (ℕ → ℝ) → ℝ) (I J : List ℕ) : ℝ :=
  ∑ t ∈ Finset.range L2.length, kept (dropTol L2 (fcoef q.nodes q.weights q.do_fourier (gridValues q v)))
    (fcoef q.nodes q.weights q.do_fourier (gridValues q v) (L2.getD t [])) *
    tripleProd q.nodes.length q.do_fourier (L2.getD t []) I J

theorem quad_formOk {slack : ℕ} {s : IndexSet} {degree : ℕ} {q : HQuad F} (hq : QuadOk q) (hU : UsableTo s q.position.dim degree) (hz2 : Sized s q.position.dim (2 * degree))
    (hd : DegreeOk slack s degree q.do_fourier) : FormOk slack s degree q.nodes q.weights q.do_fourier :=
  have h1 : 1 ≤ q.position.dim := Nat.one_le_iff_ne_zero.2 (PosOk.dim_pos hq.pos hq.dirs_ne)
  ⟨by rw [hq.dim]; exact (hU _ h1 le_rfl).toSized, by rw [hq.dim]; exact hz2,
    fun k hk hk' => hU k hk (by rw [hq.dim] at hk'; omega), hq.grid, hd, hq.weights⟩

theorem keptForm_exact {slack : ℕ} {s : IndexSet} {degree : ℕ} {q : HQuad F} (h : FormOk slack s degree q.nodes q.weights q.do_fourier)
    {v : (ℕ → ℝ) → ℝ} (he : Exact s degree q v) {L2 : List (List ℕ)} (hL2 : IterOk s q.nodes.length (2 * degree) L2) {I J : List ℕ}
    (hI : InSet s q.nodes.length degree I) (hJ : InSet s q.nodes.length degree J) : keptForm q L2 v I J = formEntry q v I J := by
  have e : formEntry q v I J = quadrature q.nodes q.weights fun k p => (gridValues q v).getD k 0 *
      (basis q.nodes.length q.do_fourier I p * basis q.nodes.length q.do_fourier J p) := by
    apply quadrature_congr
    intro k p hk
    simp [gridValues, hk]
  rw [e]
  simp only [basis_mul h.degree.cross he.closed hL2 hI hJ]
  rw [quadrature_comb q.do_fourier (gridValues q v) L2 fun m => tripleProd q.nodes.length q.do_fourier m I J]
  apply Finset.sum_congr rfl
  intro t ht
  have ht' : L2.getD t [] ∈ L2 := by simp [Finset.mem_range.1 ht]
  congr 1
  rcases he.drop L2 hL2.list _ ht' with h0 | h0
  · rw [h0, kept]; simp
  · rw [kept, if_neg (by linarith)]

section
variable [Interp F]

theorem quad_varf_mat_ok (T : Type) [MatOps T ℝ] [MatArith T ℝ] [Convert (SpMat ℝ) T] [Meaning T ℝ] [LawfulMat T ℝ] [LawfulArith T ℝ]
    [LawfulConvert (SpMat ℝ) T ℝ] {slack : ℕ} {eig : Eig} (he : EigDiag eig) {q : HQuad F} (hq : QuadOk q) {s : IndexSet} {degree : ℕ}
    (h : FormOk slack s degree q.nodes q.weights q.do_fourier) {L L2 : List (List ℕ)} (hL : IterOk s q.nodes.length degree L)
    (hL2 : IterOk s q.nodes.length (2 * degree) L2) {f : SFn F} (hfd : f.dirs = q.position.dirs)
    (hv : ∀ p ∈ f.terms, ∀ a ∈ p, ∀ d ∈ a.1, d ∈ f.dirs) :
    ∃ R : T, quad_varf_mat T slack eig degree s q f = .ok R ∧
      IsMat R L.length L.length fun i j => keptForm q L2 f.value (L.getD i []) (L.getD j []) := by
  obtain ⟨R, e, hR⟩ := Props.C35_entries_partial (T := T) slack s degree q.nodes q.weights q.do_fourier h L L2 hL.list hL2.list
    (gridValues q f.value) (by simp [gridValues])
  exact ⟨R, by rw [quad_varf_mat, quad_discretize_ok he hq hfd hv, Out.ok_bind]; exact e, hR⟩

theorem quad_varf_ok {sparse : Bool} {slack : ℕ} {eig : Eig} (he : EigDiag eig) {q : HQuad F} (hq : QuadOk q) {s : IndexSet} {degree : ℕ}
    (hU : UsableTo s q.position.dim degree) (hz2 : Sized s q.position.dim (2 * degree)) (hd : DegreeOk slack s degree q.do_fourier) {L L2 : List (List ℕ)}
    (hL : IterOk s q.position.dim degree L) (hL2 : IterOk s q.position.dim (2 * degree) L2) {f : SFn F} (hfd : f.dirs = q.position.dirs)
    (hv : ∀ p ∈ f.terms, ∀ a ∈ p, ∀ d ∈ a.1, d ∈ f.dirs) :
    quad_varf sparse slack eig degree s q f =
      .ok ⟨sparse, L.map fun I => L.map fun J => keptForm q L2 f.value I J, q.position, recDegree s degree, q.factor, s⟩ := by
  have h1 : 1 ≤ q.position.dim := Nat.one_le_iff_ne_zero.2 (PosOk.dim_pos hq.pos hq.dirs_ne)
  have hne : L ≠ [] := hL.runs.ne_nil
  have hform := quad_formOk hq hU hz2 hd
  have hLn := hL
  have hL2n := hL2
  rw [← hq.dim] at hLn hL2n
  rw [quad_varf]
  cases sparse with
  | true =>
    obtain ⟨R, e, hR⟩ := quad_varf_mat_ok (SpMat ℝ) he hq hform hLn hL2n hfd hv
    rw [if_pos rfl, quad_varf_as, e, Out.ok_bind, rowsOf_list hne hR (G := keptForm q L2 f.value) (fun _ _ _ _ => rfl), Out.ok_bind,
      mkVarf_small (hU _ h1 le_rfl) hL (by simp)]
  | false =>
    obtain ⟨R, e, hR⟩ := quad_varf_mat_ok (BMat ℝ) he hq hform hLn hL2n hfd hv
    rw [if_neg (by simp), quad_varf_as, e, Out.ok_bind, rowsOf_list hne hR (G := keptForm q L2 f.value) (fun _ _ _ _ => rfl), Out.ok_bind,
      mkVarf_small (hU _ h1 le_rfl) hL (by simp)]

theorem formEntry_congr (q : HQuad F) {v v' : (ℕ → ℝ) → ℝ} (h : ∀ x ∈ gridPoints q.nodes, v (gridPoint q.position x) = v' (gridPoint q.position x))
    (I J : List ℕ) : formEntry q v I J = formEntry q v' I J := by
  apply quadrature_congr
  intro i x hx
  rw [h x (List.mem_of_getElem? hx)]

theorem formEntry_add (q : HQuad F) (v v' : (ℕ → ℝ) → ℝ) (I J : List ℕ) :
    formEntry q (fun x => v x + v' x) I J = formEntry q v I J + formEntry q v' I J := by
  simp only [formEntry, add_mul]
  exact quadrature_add _ _

theorem formEntry_sum (q : HQuad F) (t : Multiset (Product F)) (I J : List ℕ) :
    (t.map fun args => formEntry q (productValue args) I J).sum = formEntry q (fun x => (t.map fun args => productValue args x).sum) I J := by
  induction t using Multiset.induction_on with
  | empty => simp [formEntry, quadrature]
  | cons a t ih =>
    rw [Multiset.map_cons, Multiset.sum_cons, ih, ← formEntry_add]
    simp

/-- The entries for a product are products of the entries for the blocks. -/
theorem formEntry_blocks {q : HQuad F} (hq : QuadOk q) {args p : Product F} {bs : List (Finset ℕ)}
    (h : BlocksOk q.position.dirs.toFinset args p bs) (I J : List ℕ) :
    (bs.map fun s => formEntry (subQuad q p (s.sort (· ≤ ·))) (productValue (blockPart args s))
      ((s.sort (· ≤ ·)).map (at' q.position.dirs I)) ((s.sort (· ≤ ·)).map (at' q.position.dirs J))).prod *
      productValue (constPart args) (fun _ => 0) = formEntry q (productValue args) I J := by
  have hpart := h.rel_partition hq
  let B : ℕ → List ℕ → List ℝ → ℝ := fun b m x =>
    basis (relDirs q.position ((bs.getD b ∅).sort (· ≤ ·))).length (sub 0 (relDirs q.position ((bs.getD b ∅).sort (· ≤ ·))) q.do_fourier)
        (restrict (relDirs q.position ((bs.getD b ∅).sort (· ≤ ·))) m) x
  let G : ℕ → List ℝ → ℝ := fun b x =>
    productValue (blockPart args (bs.getD b ∅)) (gridPoint (subPos q.position ((bs.getD b ∅).sort (· ≤ ·))) x) * (B b I x * B b J x)
  have e := quadrature_blocks hq.weights hpart G
  rw [List.length_map] at e
  have hb : ∀ b ∈ Finset.range bs.length, (bs.map fun s => relDirs q.position (s.sort (· ≤ ·))).getD b [] =
      relDirs q.position ((bs.getD b ∅).sort (· ≤ ·)) := by
    intro b hb
    have := Finset.mem_range.1 hb
    simp [this]
  have hmem : ∀ b ∈ Finset.range bs.length, bs.getD b ∅ ∈ bs := by
    intro b hb
    have := Finset.mem_range.1 hb
    simp [this]
  rw [list_prod_range bs ∅, mul_comm]
  have e2 : ∏ i ∈ Finset.range bs.length, formEntry (subQuad q p ((bs.getD i ∅).sort (· ≤ ·))) (productValue (blockPart args (bs.getD i ∅)))
      (((bs.getD i ∅).sort (· ≤ ·)).map (at' q.position.dirs I)) (((bs.getD i ∅).sort (· ≤ ·)).map (at' q.position.dirs J)) =
      ∏ b ∈ Finset.range bs.length, quadrature (sub [] ((bs.map fun s => relDirs q.position (s.sort (· ≤ ·))).getD b []) q.nodes)
        (sub [] ((bs.map fun s => relDirs q.position (s.sort (· ≤ ·))).getD b []) q.weights) (fun _ x => G b x) := by
    apply Finset.prod_congr rfl
    intro b hbm
    rw [hb b hbm, formEntry, do_fourier_sub hq p fun d hd => List.mem_toFinset.1 (h.sort_mem (hmem b hbm) d hd)]
    apply quadrature_congr
    intro i x hx
    simp only [G, B, subQuad, sub_length]
    congr 3 <;> simp [restrict, relDirs, at', Function.comp_def]
  rw [e2, ← e, ← quadrature_smul, formEntry]
  apply quadrature_congr
  intro i x hx
  have hG : ∀ b ∈ Finset.range bs.length, G b (sub 0 ((bs.map fun s => relDirs q.position (s.sort (· ≤ ·))).getD b []) x) =
      productValue (blockPart args (bs.getD b ∅)) (gridPoint q.position x) *
      (basis ((bs.map fun s => relDirs q.position (s.sort (· ≤ ·))).getD b []).length
        (sub 0 ((bs.map fun s => relDirs q.position (s.sort (· ≤ ·))).getD b []) q.do_fourier)
        (restrict ((bs.map fun s => relDirs q.position (s.sort (· ≤ ·))).getD b []) I)
        (sub 0 ((bs.map fun s => relDirs q.position (s.sort (· ≤ ·))).getD b []) x) *
      basis ((bs.map fun s => relDirs q.position (s.sort (· ≤ ·))).getD b []).length
        (sub 0 ((bs.map fun s => relDirs q.position (s.sort (· ≤ ·))).getD b []) q.do_fourier)
        (restrict ((bs.map fun s => relDirs q.position (s.sort (· ≤ ·))).getD b []) J)
        (sub 0 ((bs.map fun s => relDirs q.position (s.sort (· ≤ ·))).getD b []) x)) := by
    intro b hbm
    rw [hb b hbm]
    simp only [G, B]
    congr 1
    apply productValue_congr
    intro a ha d hd
    rw [blockPart, Multiset.mem_filter] at ha
    exact gridPoint_sub _ _ ((Finset.mem_sort _).2 (ha.2.2 hd))
  rw [Finset.prod_congr rfl hG, Finset.prod_mul_distrib, Finset.prod_mul_distrib]
  have hbI := basis_blocks hpart q.do_fourier I x
  have hbJ := basis_blocks hpart q.do_fourier J x
  rw [List.length_map] at hbI hbJ
  rw [← hbI, ← hbJ]
  have hargs : productValue args (gridPoint q.position x) = productValue (constPart args) (fun _ => 0) *
      ∏ b ∈ Finset.range bs.length, productValue (blockPart args (bs.getD b ∅)) (gridPoint q.position x) := by
    conv_lhs => rw [← constPart_add h, productValue_add, productValue_sum, List.map_map, list_prod_range bs ∅]
    rw [constPart_value args (fun _ => 0) (gridPoint q.position x)]
    rfl
  rw [hargs]
  ring

end

/-- What is known about the quadrature for a block. -/
structure BlockFacts (slack : ℕ) (s : IndexSet) (degree : ℕ) (q : HQuad F) (p args : Product F) (b : Finset ℕ) : Prop where
  ok : QuadOk (subQuad q p (b.sort (· ≤ ·)))
  dim : (subQuad q p (b.sort (· ≤ ·))).position.dim = (b.sort (· ≤ ·)).length
  one : 1 ≤ (b.sort (· ≤ ·)).length
  le : (b.sort (· ≤ ·)).length ≤ q.position.dim
  mem : ∀ d ∈ b.sort (· ≤ ·), d ∈ q.position.dirs
  degree : DegreeOk slack s degree (subQuad q p (b.sort (· ≤ ·))).do_fourier
  vars : ∀ p' ∈ ({blockPart args b} : Multiset (Product F)), ∀ a ∈ p', ∀ d ∈ a.1, d ∈ b.sort (· ≤ ·)

theorem blockFacts {slack : ℕ} {s : IndexSet} {degree : ℕ} {q : HQuad F} (hq : QuadOk q) {p : Product F} (hp : q.factor.terms = {p})
    (hds : DegreeOk slack s degree q.do_fourier) {args : Product F} {bs : List (Finset ℕ)}
    (hb : BlocksOk q.position.dirs.toFinset args p bs) {b : Finset ℕ} (hbb : b ∈ bs) : BlockFacts slack s degree q p args b := by
  have hmem : ∀ d ∈ b.sort (· ≤ ·), d ∈ q.position.dirs := fun d hd => List.mem_toFinset.1 (hb.sort_mem hbb d hd)
  have hle : (b.sort (· ≤ ·)).length ≤ q.position.dim := by
    rw [← hq.pos.dirs]
    exact (List.subperm_of_subset ((sorted_sort b).imp (ne_of_lt ·)) hmem).length_le
  refine ⟨subQuad_ok hq p hp (hb.sort_ne hbb) (sorted_sort b) hmem (hb.not_couples hbb), subPos_dim _ _, List.length_pos_iff.2 (hb.sort_ne hbb), hle,
    hmem, ?_, ?_⟩
  · rw [do_fourier_sub hq p hmem]
    refine hds.sub ?_
    rw [hq.grid.flags.1, hq.dim]
    exact relDirs_lt hq.pos hmem
  · intro p' hp' a ha d hdd
    rw [Multiset.mem_singleton] at hp'
    rw [hp', blockPart, Multiset.mem_filter] at ha
    exact (Finset.mem_sort _).2 (ha.2.2 hdd)

end Hermipy
