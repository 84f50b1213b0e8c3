import Verif.Lemmas.QuadProduct
import Verif.Props.SeriesProject
import Verif.Props.QuadIntegrate
import Verif.Lemmas.Varfd

/-! # C74: `Quad.tensorize` -/

namespace Hermipy.Props
open Hermipy Hermipy.Spec
variable {F : Type}

/-- C74. The product of quadratures without common directions, with the same number of nodes in each direction: it has the directions of all
of them, with their means, variances and types, and with their nodes and weights; its factor is the product of the factors. -/
theorem C74_tensorize_partial [Interp F] {args : List (HQuad F)} {D : List ℕ} {n : ℕ} (h : Multipliable args D n) :
    ∃ q, quad_tensorize args = .ok q ∧ QuadOk q ∧ q.position.dirs = D ∧ (∀ d x, Has q.position d x ↔ ∃ a ∈ args, Has a.position d x) ∧
      (∀ a ∈ args, ∀ d ∈ a.position.dirs, nodesIn q d = nodesIn a d ∧ weightsIn q d = weightsIn a d) ∧
      ∀ x, q.factor.value x = (args.map fun a => a.factor.value x).prod := by
  obtain ⟨P, N, W, e, ok, hd, hhas, hNW⟩ := quad_tensorize_ok h
  refine ⟨_, e, ok, hd, hhas, ?_, value_quadTerms args D⟩
  intro a ha d hda
  have hmem : d ∈ D := h.mem.2 ⟨a, ha, hda⟩
  have hi := List.idxOf_lt_length_of_mem hmem
  obtain ⟨h1, h2⟩ := hNW a ha d hda
  simp only [nodesIn, weightsIn, hd] at h1 h2 ⊢
  rw [← h1, ← h2]
  simp [hi]

/-- The part of the product in the directions of an argument. -/
theorem part_eq {args : List (HQuad F)} {D : List ℕ} {n : ℕ} (h : Multipliable args D n) {q : HQuad F} (ok : QuadOk q)
    (hd : q.position.dirs = D) (hhas : ∀ d x, Has q.position d x ↔ ∃ a ∈ args, Has a.position d x)
    (hNW : ∀ a ∈ args, ∀ d ∈ a.position.dirs, nodesIn q d = nodesIn a d ∧ weightsIn q d = weightsIn a d) {a : HQuad F} (ha : a ∈ args) :
    subPos q.position a.position.dirs = a.position ∧ sub [] (relDirs q.position a.position.dirs) q.nodes = a.nodes ∧
      sub [] (relDirs q.position a.position.dirs) q.weights = a.weights := by
  have oka := h.ok a ha
  have hmem : ∀ d ∈ a.position.dirs, d ∈ q.position.dirs := fun d hda => by rw [hd]; exact h.mem.2 ⟨a, ha, hda⟩
  refine ⟨?_, ?_, ?_⟩
  · refine (position_ext oka.pos (subPos_ok _ oka.sorted) oka.diag (subPos_diagonal _ _) rfl ?_).symm
    intro d x hx
    rw [sub_has ok.pos hmem]
    exact ⟨(hhas d x).2 ⟨a, ha, hx⟩, hx.mem⟩
  · apply List.ext_getElem
    · simp [sub, relDirs, oka.dim, oka.pos.dirs]
    · intro i h1 h2
      have hi : i < a.position.dirs.length := by simpa [sub, relDirs] using h1
      have := (hNW a ha _ (List.getElem_mem hi)).1
      simp only [nodesIn, oka.pos.nodup.idxOf_getElem] at this
      simp only [sub, relDirs, List.map_map, List.getElem_map, Function.comp_apply, this]
      simp [h2]
  · apply List.ext_getElem
    · simp [sub, relDirs, oka.weights_length, oka.dim, oka.pos.dirs]
    · intro i h1 h2
      have hi : i < a.position.dirs.length := by simpa [sub, relDirs] using h1
      have := (hNW a ha _ (List.getElem_mem hi)).2
      simp only [weightsIn, oka.pos.nodup.idxOf_getElem] at this
      simp only [sub, relDirs, List.map_map, List.getElem_map, Function.comp_apply, this]
      simp [h2]

/-- C74. The quadrature of a product of functions of the directions of the arguments is the product of the quadratures. -/
theorem C74_integral_partial [Interp F] {args : List (HQuad F)} {D : List ℕ} {n : ℕ} (h : Multipliable args D n)
    {g : HQuad F → (ℕ → ℝ) → ℝ} (hg : ∀ a ∈ args, ∀ x y, (∀ d ∈ a.position.dirs, x d = y d) → g a x = g a y) :
    ∃ q, quad_tensorize args = .ok q ∧
      quadrature q.nodes q.weights (fun _ x => (args.map fun a => g a (gridPoint q.position x)).prod) =
        (args.map fun a => quadrature a.nodes a.weights fun _ x => g a (gridPoint a.position x)).prod := by
  obtain ⟨q, e, ok, hd, hhas, hNW, -⟩ := C74_tensorize_partial h
  refine ⟨q, e, ?_⟩
  have hmem : ∀ a ∈ args, ∀ d ∈ a.position.dirs, d ∈ q.position.dirs := fun a ha d hda => by rw [hd]; exact h.mem.2 ⟨a, ha, hda⟩
  obtain ⟨a0, as, has⟩ := List.exists_cons_of_ne_nil h.ne
  have hpart : Partition q.nodes.length (args.map fun a => relDirs q.position a.position.dirs) := by
    refine ⟨?_, ?_⟩
    · intro b hb
      obtain ⟨a, ha, rfl⟩ := List.mem_map.1 hb
      exact ⟨by simpa [relDirs] using (h.ok a ha).dirs_ne, relDirs_pairwise ok.sorted (h.ok a ha).sorted (hmem a ha)⟩
    · have e1 : (args.map fun a => relDirs q.position a.position.dirs).flatten =
          ((args.map fun a => a.position.dirs).flatten).map fun d => q.position.dirs.idxOf d := by
        rw [List.map_flatten, List.map_map]
        rfl
      rw [e1, ok.dim, ← ok.pos.dirs, ← map_idxOf_self ok.pos.nodup]
      exact (h.perm.trans (by rw [hd])).map _
  have hb : ∀ b ∈ Finset.range args.length, (args.map fun a => relDirs q.position a.position.dirs).getD b [] =
      relDirs q.position (args.getD b a0).position.dirs := by
    intro b hb
    have := Finset.mem_range.1 hb
    simp [this]
  have hin : ∀ b ∈ Finset.range args.length, args.getD b a0 ∈ args := by
    intro b hb
    have := Finset.mem_range.1 hb
    simp [this]
  have e := quadrature_blocks ok.weights hpart (fun b x => g (args.getD b a0) (gridPoint (args.getD b a0).position x))
  rw [List.length_map] at e
  rw [list_prod_range args a0]
  have e2 : ∏ i ∈ Finset.range args.length, quadrature (args.getD i a0).nodes (args.getD i a0).weights (fun _ x =>
        g (args.getD i a0) (gridPoint (args.getD i a0).position x)) =
      ∏ b ∈ Finset.range args.length, quadrature (sub [] ((args.map fun a => relDirs q.position a.position.dirs).getD b []) q.nodes)
        (sub [] ((args.map fun a => relDirs q.position a.position.dirs).getD b []) q.weights) (fun _ x =>
        g (args.getD b a0) (gridPoint (args.getD b a0).position x)) := by
    apply Finset.prod_congr rfl
    intro b hbm
    obtain ⟨-, h2, h3⟩ := part_eq h ok hd hhas hNW (hin b hbm)
    rw [hb b hbm, h2, h3]
  rw [e2, ← e]
  apply quadrature_congr
  intro i x _
  rw [list_prod_range args a0]
  apply Finset.prod_congr rfl
  intro b hbm
  rw [hb b hbm]
  refine hg _ (hin b hbm) _ _ fun d hda => ?_
  obtain ⟨h1, -, -⟩ := part_eq h ok hd hhas hNW (hin b hbm)
  rw [← gridPoint_sub q.position x hda, h1]

/-- C74. What `Quad.integrate` returns: the integral of a product of functions, each of the directions of one argument, over the product is
the product of their integrals over the arguments. -/
theorem C74_integrate_partial [Interp F] {slack : ℕ} {eig : Eig} (he : EigDiag eig) (hs : 1 ≤ slack) {args : List (HQuad F)} {D : List ℕ} {n : ℕ}
    (h : Multipliable args D n) {f : SFn F} (hf : SFnOk f) (hfd : f.dirs = D) {fs : HQuad F → SFn F} (hfs : ∀ a ∈ args, SFnOk (fs a))
    (hfsd : ∀ a ∈ args, (fs a).dirs = a.position.dirs) (hv : ∀ x, f.value x = (args.map fun a => (fs a).value x).prod) :
    ∃ q, quad_tensorize args = .ok q ∧ ∃ I : HQuad F → ℝ, (∀ a ∈ args, quad_integrate slack eig a (fs a) = .ok (I a)) ∧
      quad_integrate slack eig q f = .ok (args.map I).prod := by
  obtain ⟨q, e, hq⟩ := C74_integral_partial h (g := fun a => (fs a).value) (by
    intro a ha x y hxy
    apply SFn.value_congr
    intro p hp b hb d hd
    exact hxy d (hfsd a ha ▸ (hfs a ha).vars p hp b hb d hd))
  obtain ⟨q', e', ok, hd, -, -, -⟩ := C74_tensorize_partial h
  cases Out.ok.inj (e.symm.trans e')
  refine ⟨q, e, fun a => quadrature a.nodes a.weights fun _ x => (fs a).value (gridPoint a.position x), ?_, ?_⟩
  · intro a ha
    exact quad_integrate_ok he (h.ok a ha) (fun _ => hs) (hfsd a ha) (hfs a ha).vars
  · rw [quad_integrate_ok he ok (fun _ => hs) (hfd.trans hd.symm) hf.vars, ← hq]
    simp only [hv]

/-- C74. Projecting the product on the directions of an argument gives the nodes, weights and position of the argument, and the factors which
depend on its directions (with all constants if the lowest direction is among them). -/
theorem C74_project_partial {args : List (HQuad F)} {D : List ℕ} {n : ℕ} (h : Multipliable args D n) {p : HQuad F → Product F}
    (hp : ∀ a ∈ args, a.factor.terms = {p a}) {a : HQuad F} (ha : a ∈ args) :
    ∃ q, quad_tensorize args = .ok q ∧ quad_project q a.position.dirs =
      .ok ⟨a.nodes, a.weights, a.position, ⟨a.position.dirs, {partOn (args.map p).sum.toList (D.headD 0) a.position.dirs}⟩⟩ := by
  obtain ⟨P, N, W, e, ok, hd, hhas, hNW⟩ := quad_tensorize_ok h
  refine ⟨_, e, ?_⟩
  have hmem : ∀ d ∈ a.position.dirs, d ∈ D := fun d hda => h.mem.2 ⟨a, ha, hda⟩
  have hterms : quadTerms args = {(args.map p).sum} := quadTerms_single p args hp
  have hc : ¬ Couples (args.map p).sum.toList a.position.dirs := by
    rintro ⟨b, hb, ⟨x, hx, hxa⟩, y, hy, hya⟩
    rw [Multiset.mem_toList] at hb
    have key : ∀ (l : List (HQuad F)), b ∈ (l.map p).sum → ∃ c ∈ l, b ∈ p c := by
      intro l
      induction l with
      | nil => simp
      | cons c l ih =>
        rw [List.map_cons, List.sum_cons, Multiset.mem_add]
        rintro (h | h)
        · exact ⟨c, by simp, h⟩
        · obtain ⟨c', h1, h2⟩ := ih h
          exact ⟨c', by simp [h1], h2⟩
    obtain ⟨c, hc, hbc⟩ := key args hb
    have hvars : ∀ z ∈ b.1, z ∈ c.position.dirs := by
      intro z hz
      rw [← (h.ok c hc).factorDirs]
      exact (h.ok c hc).factor.vars (p c) (by simp [hp c hc]) b hbc z hz
    have hn : (args.map fun a => a.position.dirs).flatten.Nodup := h.perm.nodup_iff.2 (h.sorted.imp (ne_of_lt ·))
    obtain ⟨i, hi, rfl⟩ := List.getElem_of_mem ha
    obtain ⟨j, hj, rfl⟩ := List.getElem_of_mem hc
    have := flatten_disjoint hn hi hj hxa (hvars x hx)
    subst this
    exact hya (hvars y hy)
  rw [quad_project_ok ok (p := (args.map p).sum) (by rw [hterms]) (h.ok a ha).sorted (by rw [hd]; exact hmem) hc, subQuad]
  obtain ⟨h1, h2, h3⟩ := part_eq h ok hd hhas (by
    intro b hb d hdb
    have hmem : d ∈ D := h.mem.2 ⟨b, hb, hdb⟩
    have hi := List.idxOf_lt_length_of_mem hmem
    obtain ⟨h1, h2⟩ := hNW b hb d hdb
    simp only [nodesIn, weightsIn, hd] at h1 h2 ⊢
    rw [← h1, ← h2]
    simp [hi]) ha
  rw [h1, h2, h3, partOn_sub, hd]

/-- C74. Projecting a quadrature whose factor is a single product on blocks of directions, which no factor couples, and tensorizing the
results gives the quadrature back. -/
theorem C74_reassemble_partial {q : HQuad F} (hq : QuadOk q) {p : Product F} (hp : q.factor.terms = {p}) {Ds : List (List ℕ)}
    (hne : ∀ D ∈ Ds, D ≠ []) (hs : ∀ D ∈ Ds, D.Pairwise (· < ·)) (hperm : Ds.flatten.Perm q.position.dirs)
    (hc : ∀ D ∈ Ds, ¬ Couples p.toList D) :
    ∃ parts, Ds.mapM (quad_project q) = .ok parts ∧ quad_tensorize parts = .ok q := by
  have hm : ∀ D ∈ Ds, ∀ d ∈ D, d ∈ q.position.dirs := fun D hD d hd => hperm.mem_iff.1 (List.mem_flatten.2 ⟨D, hD, hd⟩)
  have hn : Ds.flatten.Nodup := hperm.nodup_iff.2 hq.pos.nodup
  refine ⟨Ds.map (subQuad q p), mapM_ok fun D hD => quad_project_ok hq hp (hs D hD) (hm D hD) (hc D hD), ?_⟩
  have hDne : Ds ≠ [] := by
    rintro rfl
    exact hq.dirs_ne (List.nil_perm.1 (by simpa using hperm))
  have hdirs : ∀ D, (subQuad q p D).position.dirs = D := fun _ => rfl
  obtain ⟨r, rs, hr⟩ := List.exists_cons_of_ne_nil hq.grid.dim_pos
  have huni : ∀ x ∈ q.nodes, x.length = r.length := fun x hx => by have := hq.uniform x hx; rw [hr] at this; simpa using this
  have hmul : Multipliable (Ds.map (subQuad q p)) q.position.dirs r.length := by
    refine ⟨by simpa using hDne, ?_, hq.sorted, ?_, ?_, ?_⟩
    · intro a ha
      obtain ⟨D, hD, rfl⟩ := List.mem_map.1 ha
      exact subQuad_ok hq p hp (hne D hD) (hs D hD) (hm D hD) (hc D hD)
    · rw [List.map_map]
      simpa [Function.comp_def, hdirs] using hperm
    · intro a ha x hx
      obtain ⟨D, hD, rfl⟩ := List.mem_map.1 ha
      simp only [subQuad, sub, relDirs, List.map_map, List.mem_map, Function.comp_apply] at hx
      obtain ⟨d, hd, rfl⟩ := hx
      have hi : q.position.dirs.idxOf d < q.nodes.length := by
        rw [hq.dim, ← hq.pos.dirs]; exact List.idxOf_lt_length_of_mem (hm D hD d hd)
      exact huni _ (by simp [hi])
    · have := hq.grid.small
      rw [gridPoints, length_cartesian] at this
      have e : q.nodes.map List.length = List.replicate q.position.dirs.length r.length := by
        rw [List.eq_replicate_iff]
        refine ⟨by rw [List.length_map, hq.dim, hq.pos.dirs], ?_⟩
        intro b hb
        obtain ⟨x, hx, rfl⟩ := List.mem_map.1 hb
        exact huni x hx
      rwa [e, List.prod_replicate] at this
  obtain ⟨P, N, W, e, ok, hd, hhas, hNW⟩ := quad_tensorize_ok hmul
  have hsum : quadTerms (Ds.map (subQuad q p)) = {p} := by
    obtain ⟨d0, ds, hd0⟩ := List.exists_cons_of_ne_nil hq.dirs_ne
    obtain ⟨ps, e1, -, e3⟩ := C51_blocks hq.factor.fnOk (args := p.toList) (by rw [toFn_single hp]) (by
        have : q.factor.toFn.dirs = q.position.dirs := hq.factorDirs
        rw [this]; exact hq.dirs_ne) (Ds := Ds) (fun D hD => (hs D hD).imp le_of_lt) (by
        rw [List.nodup_flatten] at hn
        exact hn.2.imp fun h x h1 h2 => h h1 h2) (by
        intro x hx
        have hx : x ∈ q.position.dirs := by rw [← hq.factorDirs]; exact hx
        exact List.mem_flatten.1 (hperm.mem_iff.2 hx)) hc
    have e2 : Ds.mapM (fn_project q.factor.toFn) = .ok (Ds.map fun D => (D, subProduct p (q.position.dirs.headD 0) D)) := by
      refine mapM_ok fun D hD => ?_
      rw [fn_project_ok hq.factor.fnOk (args := p.toList) (by rw [toFn_single hp]) (d0 := d0) (ds := ds)
        (by rw [← hd0, ← hq.factorDirs]; rfl) ((hs D hD).imp le_of_lt) (hc D hD), partOn_sub, hd0]
      rfl
    have e4 := Out.ok.inj (e1.symm.trans e2)
    subst e4
    rw [quadTerms, List.foldl_map]
    have key : ∀ (l : List (List ℕ)) (u : Product F), l.foldl (fun t D => mulTerms t (subQuad q p D).factor.terms) {u} =
        {u + (l.map fun D => subProduct p (q.position.dirs.headD 0) D).sum} := by
      intro l
      induction l with
      | nil => intro u; simp
      | cons D l ih =>
        intro u
        have : mulTerms {u} (subQuad q p D).factor.terms = {u + subProduct p (q.position.dirs.headD 0) D} := by simp [mulTerms, subQuad]
        rw [List.foldl_cons, this, ih]
        simp [add_assoc]
    rw [key, zero_add]
    rw [List.map_map, Multiset.coe_toList] at e3
    exact congrArg (fun t => ({t} : Multiset (Product F))) e3
  have hposn : P = q.position := by
    refine position_ext ok.pos hq.pos ok.diag hq.diag hd ?_
    intro d x hx
    obtain ⟨a, ha, hax⟩ := (hhas d x).1 hx
    obtain ⟨D, hD, rfl⟩ := List.mem_map.1 ha
    exact ((sub_has hq.pos (hm D hD) d x).1 hax).1
  have hval : ∀ d ∈ q.position.dirs, N d = nodesIn q d ∧ W d = weightsIn q d := by
    intro d hd
    obtain ⟨D, hD, hdD⟩ := List.mem_flatten.1 (hperm.mem_iff.2 hd)
    obtain ⟨h1, h2⟩ := hNW _ (List.mem_map.2 ⟨D, hD, rfl⟩) d hdD
    have hi := List.idxOf_lt_length_of_mem hdD
    rw [h1, h2]
    simp [nodesIn, weightsIn, hdirs, subQuad, sub, relDirs, subPos, assemble, hi]
  have hrow : ∀ (l : List (List ℝ)), l.length = q.position.dirs.length →
      (q.position.dirs.map fun d => l.getD (q.position.dirs.idxOf d) []) = l := by
    intro l hl
    apply List.ext_getElem
    · simp [hl]
    · intro i h1 h2
      have hi : i < q.position.dirs.length := by simpa using h1
      rw [List.getElem_map, hq.pos.nodup.idxOf_getElem]
      simp [h2]
  have hN : q.position.dirs.map N = q.nodes := by
    rw [← hrow q.nodes (by rw [hq.dim, hq.pos.dirs])]
    exact List.map_congr_left fun d hd => (hval d hd).1
  have hW : q.position.dirs.map W = q.weights := by
    rw [← hrow q.weights (by rw [hq.weights_length, hq.dim, hq.pos.dirs])]
    exact List.map_congr_left fun d hd => (hval d hd).2
  rw [e, hN, hW, hposn, hsum, ← hp, ← hq.factorDirs]

/-- C74. Quadratures with different numbers of nodes cannot be multiplied. -/
theorem C74_points {args : List (HQuad F)} {D : List ℕ} (hok : ∀ a ∈ args, QuadOk a) (hD : D.Pairwise (· < ·))
    (hperm : (args.map fun a => a.position.dirs).flatten.Perm D) {a b : HQuad F} (ha : a ∈ args) (hb : b ∈ args) {d e : ℕ}
    (hd : d ∈ a.position.dirs) (he : e ∈ b.position.dirs) (hne : (nodesIn a d).length ≠ (nodesIn b e).length) :
    quad_tensorize args = .throws := by
  obtain ⟨P, N, W, eq, -, -, -, -, hNW, -⟩ := quad_tensorize_run (List.ne_nil_of_mem ha) hok hD hperm
  rw [eq, mkQuad, if_pos]
  left
  intro hu
  have h1 := hu (N d) (List.mem_map.2 ⟨d, (mem_flatten_dirs hperm).2 ⟨a, ha, hd⟩, rfl⟩)
  have h2 := hu (N e) (List.mem_map.2 ⟨e, (mem_flatten_dirs hperm).2 ⟨b, hb, he⟩, rfl⟩)
  rw [(hNW a ha d hd).1] at h1
  rw [(hNW b hb e he).1] at h2
  exact hne (h1.trans h2.symm)

/-- C74. Quadratures with a common direction cannot be multiplied: `Position.tensorize` drops this direction (or raises). -/
theorem C74_shared {args : List (HQuad F)} (hok : ∀ a ∈ args, QuadOk a) {d : ℕ}
    (h2 : 2 ≤ (args.filter fun a => d ∈ a.position.dirs).length) : quad_tensorize args = .throws := by
  have hlen : (holders (args.map HQuad.position) d).length = (args.filter fun a => d ∈ a.position.dirs).length := by
    rw [holders, List.filter_map, List.length_map]
    rfl
  have hne : args ≠ [] := by rintro rfl; simp at h2
  obtain ⟨a, ha, had⟩ : ∃ a ∈ args, d ∈ a.position.dirs := by
    obtain ⟨a, ha⟩ := List.exists_mem_of_length_pos (lt_of_lt_of_le two_pos h2)
    simpa using List.mem_filter.1 ha |> fun h => (⟨a, h.1, by simpa using h.2⟩ : ∃ a ∈ args, d ∈ a.position.dirs)
  have hposok : ∀ p ∈ args.map HQuad.position, PosOk p := by simpa using fun a ha => (hok a ha).pos
  by_cases hgood : (∀ e, (holders (args.map HQuad.position) e).length ≤ 2) ∧ Agrees (args.map HQuad.position)
  · obtain ⟨r, er, -, hmem, -⟩ := C52_tensorize_partial (args.map HQuad.position) (by simpa using hne) hposok
      (by simpa using fun a ha => (hok a ha).diag.is_diag) hgood.1 hgood.2
    have hd : d ∉ r.dirs := by rw [hmem, hlen]; omega
    have hstep : ∀ b ∈ args, ∀ (s : List (Option (List ℝ × List ℝ))), ∀ e ∈ b.position.dirs.zipIdx,
        (∃ s', fillSlot r.dirs b s e = .ok s') ∨ fillSlot r.dirs b s e = .throws := by
      intro b hb s e he
      have ok := hok b hb
      obtain ⟨h1, -⟩ := List.mem_zipIdx' he
      have hi1 : e.2 < b.nodes.length := by rw [ok.dim, ← ok.pos.dirs]; exact h1
      have hi2 : e.2 < b.weights.length := by rw [ok.weights_length]; exact hi1
      by_cases hm : e.1 ∈ r.dirs
      · exact Or.inl ⟨s.set (r.dirs.idxOf e.1) (some (b.nodes[e.2], b.weights[e.2])), by simp [fillSlot, pyget, pyindex, hi1, hi2, hm]⟩
      · exact Or.inr (by rw [fillSlot, pyget_some (List.getElem?_eq_getElem hi1), Out.ok_bind, pyindex, if_neg hm]; rfl)
    have hfold : ∀ b ∈ args, ∀ s, (∃ s', b.position.dirs.zipIdx.foldlM (fillSlot r.dirs b) s = .ok s') ∨
        b.position.dirs.zipIdx.foldlM (fillSlot r.dirs b) s = .throws := by
      intro b hb
      have : ∀ (l : List (ℕ × ℕ)), (∀ e ∈ l, e ∈ b.position.dirs.zipIdx) → ∀ s, (∃ s', l.foldlM (fillSlot r.dirs b) s = .ok s') ∨
          l.foldlM (fillSlot r.dirs b) s = .throws := by
        intro l
        induction l with
        | nil => exact fun _ s => Or.inl ⟨s, rfl⟩
        | cons e l ih =>
          intro hl s
          rw [List.foldlM_cons]
          rcases hstep b hb s e (hl e (by simp)) with ⟨s', e'⟩ | e'
          · rw [e', Out.ok_bind]
            exact ih (fun e he => hl e (by simp [he])) s'
          · rw [e']
            exact Or.inr rfl
      exact this _ fun _ h => h
    have hthrow : ∀ s, a.position.dirs.zipIdx.foldlM (fillSlot r.dirs a) s = .throws := by
      intro s
      refine foldlM_throws (fun _ => True) _ s trivial ?_ ?_
      · intro s e _ he
        rcases hstep a ha s e he with ⟨s', h⟩ | h
        · exact Or.inl ⟨s', h, trivial⟩
        · exact Or.inr h
      · have hi := List.idxOf_lt_length_of_mem had
        refine ⟨(d, a.position.dirs.idxOf d), ?_, ?_⟩
        · rw [List.mem_zipIdx_iff_getElem?]
          simp [hi]
        · intro s _
          have hi1 : a.position.dirs.idxOf d < a.nodes.length := by rw [(hok a ha).dim, ← (hok a ha).pos.dirs]; exact hi
          rw [fillSlot, pyget_some (List.getElem?_eq_getElem hi1), Out.ok_bind, pyindex, if_neg hd]
          rfl
    have hall : ∀ s, args.foldlM (fun slots b => b.position.dirs.zipIdx.foldlM (fillSlot r.dirs b) slots) s = .throws := by
      intro s
      refine foldlM_throws (fun _ => True) args s trivial ?_ ⟨a, ha, fun s _ => hthrow s⟩
      intro s b _ hb
      rcases hfold b hb s with ⟨s', h⟩ | h
      · exact Or.inl ⟨s', h, trivial⟩
      · exact Or.inr h
    obtain ⟨c, cs, rfl⟩ := List.exists_cons_of_ne_nil hne
    rw [quad_tensorize, er, Out.ok_bind]
    simp only
    rw [hall]
    rfl
  · have : pos_tensorize (args.map HQuad.position) = .throws := by
      refine C52_rejects _ hposok (Or.inr (Or.inr ?_))
      by_contra hcon
      push Not at hcon
      exact hgood ⟨fun e => by have := hcon.1 e; omega, hcon.2⟩
    obtain ⟨c, cs, rfl⟩ := List.exists_cons_of_ne_nil hne
    rw [quad_tensorize, this]
    rfl

/-- C74. There is no product of no quadratures. -/
theorem C74_empty : quad_tensorize ([] : List (HQuad F)) = .throws := rfl

/-! ## Concrete cases -/

/-- A rule with `n + 1` nodes in the direction `d` with mean `m` and variance `v`, of Hermite type, with the factor `f`. -/
noncomputable def line74 (d : ℕ) (m v : ℝ) (n : ℕ) (f : String) : HQuad String :=
  ⟨[(List.range (n + 1)).map fun i => (i : ℝ)], [List.replicate (n + 1) (1 / 2)], assemble [d] [(m, v, "hermite")], ⟨[d], {{({d}, f)}}⟩⟩

theorem line74_ok (d : ℕ) (m v : ℝ) {n : ℕ} (hn : n < 100) (f : String) : QuadOk (line74 d m v n f) where
  pos := ⟨rfl, rfl, rfl, by simp [line74, assemble, diagMat], rfl, by simp [line74, assemble]⟩
  diag := assemble_diagonal _ _
  dim := rfl
  grid := ⟨by simp [line74], by simpa [line74] using ⟨0, Nat.zero_le n⟩, ⟨rfl, by simp [line74, HQuad.do_fourier, assemble]⟩, by
    simp [line74, gridPoints, length_cartesian]; omega⟩
  weights := by simp [line74]
  uniform := by intro r hr; simp [line74] at hr ⊢; simp [hr]
  factor := ⟨by simp [line74], by simp [line74]⟩
  factorDirs := rfl

/-- A rule in the directions `0` and `2`, the second of Fourier type, whose factor couples them. -/
noncomputable def plane74 : HQuad String :=
  ⟨[[3, 4], [5, 6]], [[1, 2], [3, 4]], assemble [0, 2] [(7, 4, "hermite"), (0, 1, "fourier")],
    ⟨[0, 2], {({(∅, "3"), ({0, 2}, "g")} : Product String)}⟩⟩

theorem plane74_ok : QuadOk plane74 where
  pos := ⟨rfl, rfl, rfl, by simp [plane74, assemble, diagMat], rfl, by simp [plane74, assemble]⟩
  diag := assemble_diagonal _ _
  dim := rfl
  grid := ⟨by simp [plane74], by simp [plane74], ⟨rfl, by simp [plane74, HQuad.do_fourier, assemble]⟩, by
    simp [plane74, gridPoints, cartesian]⟩
  weights := rfl
  uniform := by intro r hr; simp [plane74] at hr ⊢; rcases hr with rfl | rfl <;> rfl
  factor := ⟨by simp [plane74], by
    intro p hp a ha d hd
    simp only [plane74, Multiset.mem_singleton] at hp
    subst hp
    simp at ha
    rcases ha with rfl | rfl <;> simp_all [plane74]⟩
  factorDirs := rfl

theorem mult74 : Multipliable [line74 1 5 9 1 "f", plane74] [0, 1, 2] 2 where
  ne := by simp
  ok := by
    intro a ha
    rcases List.mem_cons.1 ha with rfl | ha
    · exact line74_ok 1 5 9 (by norm_num) "f"
    · rw [List.mem_singleton.1 ha]; exact plane74_ok
  sorted := by simp
  perm := List.Perm.swap 0 1 [2]
  points := by
    intro a ha r hr
    rcases List.mem_cons.1 ha with rfl | ha
    · simp [line74] at hr; simp [hr]
    · rw [List.mem_singleton.1 ha] at hr
      simp [plane74] at hr
      rcases hr with rfl | rfl <;> rfl
  small := by norm_num

/-- The direction `1` goes between the directions `0` and `2`. -/
example : ∃ q, quad_tensorize [line74 1 5 9 1 "f", plane74] = .ok q ∧ q.position.dirs = [0, 1, 2] ∧ nodesIn q 0 = [3, 4] ∧
    nodesIn q 1 = [0, 1] ∧ nodesIn q 2 = [5, 6] ∧ weightsIn q 1 = [1 / 2, 1 / 2] ∧ Has q.position 1 (5, 9, "hermite") := by
  let _ : Interp String := ⟨fun _ _ _ => 1, fun _ _ _ _ _ => rfl⟩
  obtain ⟨q, e, -, hd, hhas, hNW, -⟩ := C74_tensorize_partial mult74
  have h1 := hNW (line74 1 5 9 1 "f") (by simp) 1 (by simp [line74, assemble])
  have h2 := hNW plane74 (by simp) 0 (by simp [plane74, assemble])
  have h3 := hNW plane74 (by simp) 2 (by simp [plane74, assemble])
  refine ⟨q, e, hd, ?_, ?_, ?_, ?_, (hhas _ _).2 ⟨line74 1 5 9 1 "f", by simp, 0, [9], rfl, rfl, rfl, rfl, rfl⟩⟩
  · rw [h2.1]; simp [nodesIn, plane74, assemble]
  · rw [h1.1]; simp [nodesIn, line74, assemble, List.range_succ]
  · rw [h3.1]; simp [nodesIn, plane74, assemble, List.idxOf_cons]
  · rw [h1.2]; simp [weightsIn, line74, assemble, List.replicate_succ]

/-- The sum of the coordinates in the directions of each argument. -/
example : ∃ q, quad_tensorize [line74 1 5 9 1 "f", plane74] = .ok q ∧
    quadrature q.nodes q.weights (fun _ x => (([line74 1 5 9 1 "f", plane74] : List (HQuad String)).map fun a =>
      (a.position.dirs.map (gridPoint q.position x)).sum).prod) =
    (([line74 1 5 9 1 "f", plane74] : List (HQuad String)).map fun a =>
      quadrature a.nodes a.weights fun _ x => (a.position.dirs.map (gridPoint a.position x)).sum).prod := by
  let _ : Interp String := ⟨fun _ _ _ => 1, fun _ _ _ _ _ => rfl⟩
  exact C74_integral_partial mult74 (g := fun a x => (a.position.dirs.map x).sum) fun a _ x y h => by
    rw [List.map_congr_left h]

/-- The factor of the product is integrated as the product of the factors. -/
example [Interp String] {eig : Eig} (he : EigDiag eig) : ∃ q, quad_tensorize [line74 1 5 9 1 "f", plane74] = .ok q ∧
    ∃ I : HQuad String → ℝ, (∀ a ∈ [line74 1 5 9 1 "f", plane74], quad_integrate 1 eig a a.factor = .ok (I a)) ∧
      quad_integrate 1 eig q q.factor = .ok (([line74 1 5 9 1 "f", plane74] : List (HQuad String)).map I).prod := by
  obtain ⟨P, N, W, e, ok, -, -, -⟩ := quad_tensorize_ok mult74
  obtain ⟨q, e', I, h1, h2⟩ := C74_integrate_partial he (le_refl 1) mult74 (f := ⟨[0, 1, 2], quadTerms [line74 1 5 9 1 "f", plane74]⟩)
    ok.factor rfl (fs := HQuad.factor) (fun a ha => (mult74.ok a ha).factor) (fun a ha => (mult74.ok a ha).factorDirs)
    (value_quadTerms _ _)
  cases Out.ok.inj (e.symm.trans e')
  exact ⟨_, e, I, h1, h2⟩

/-- Projecting on the directions `0` and `2` gives the coupled rule back, with its constant. -/
example : ∃ q, quad_tensorize [line74 1 5 9 1 "f", plane74] = .ok q ∧ ∃ r, quad_project q [0, 2] = .ok r ∧ r.nodes = [[3, 4], [5, 6]] ∧
    r.position = plane74.position := by
  obtain ⟨q, e, hp⟩ := C74_project_partial mult74 (p := fun a => if a.position.dirs = [1] then {({1}, "f")} else {(∅, "3"), ({0, 2}, "g")}) (by
    intro a ha
    rcases List.mem_cons.1 ha with rfl | ha
    · simp [line74, assemble]
    · rw [List.mem_singleton.1 ha]; simp [plane74, assemble]) (a := plane74) (by simp)
  exact ⟨q, e, _, hp, rfl, rfl⟩

/-- Different numbers of nodes. -/
example : quad_tensorize [line74 0 5 9 1 "f", line74 1 0 1 2 "g"] = .throws :=
  C74_points (D := [0, 1]) (by
    intro a ha
    rcases List.mem_cons.1 ha with rfl | ha
    · exact line74_ok 0 5 9 (by norm_num) "f"
    · rw [List.mem_singleton.1 ha]; exact line74_ok 1 0 1 (by norm_num) "g") (by simp) (List.Perm.refl _)
    (a := line74 0 5 9 1 "f") (b := line74 1 0 1 2 "g") (by simp) (by simp) (d := 0) (e := 1) (by simp [line74, assemble])
    (by simp [line74, assemble]) (by simp [nodesIn, line74, assemble])

/-- A quadrature with itself. -/
example : quad_tensorize [plane74, plane74] = .throws :=
  C74_shared (by simpa using plane74_ok) (d := 2) (by simp [plane74, assemble])

/-- The rule in the directions `0` and `2` cannot be taken apart; the product with a rule in the direction `1` can. -/
example : ∃ (q : HQuad String) (parts : List (HQuad String)), QuadOk q ∧ q.position.dirs = [0, 1, 2] ∧ [[1], [0, 2]].mapM (quad_project q) = .ok parts ∧
    quad_tensorize parts = .ok q := by
  obtain ⟨P, N, W, e, ok, hd, -, -⟩ := quad_tensorize_ok mult74
  have hp : quadTerms [line74 1 5 9 1 "f", plane74] = {({({1}, "f"), (∅, "3"), ({0, 2}, "g")} : Product String)} := by
    simp [quadTerms, mulTerms, line74, plane74]
    exact Multiset.cons_swap _ _ _
  obtain ⟨parts, h1, h2⟩ := C74_reassemble_partial ok (p := {({1}, "f"), (∅, "3"), ({0, 2}, "g")}) hp (Ds := [[1], [0, 2]]) (by simp) (by simp)
    (by rw [hd]; exact List.Perm.swap 0 1 [2]) (by
      intro D hD
      rintro ⟨b, hb, ⟨x, hx, hxD⟩, y, hy, hyD⟩
      rw [Multiset.mem_toList] at hb
      simp at hb hD
      rcases hD with rfl | rfl <;> rcases hb with rfl | rfl | rfl <;> simp_all)
  exact ⟨_, parts, ok, hd, h1, h2⟩

end Hermipy.Props
