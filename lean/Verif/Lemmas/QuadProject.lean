import Verif.Lemmas.QuadObject
import Verif.Lemmas.FunctionSplit

/-! # Projections of quadratures -/

namespace Hermipy
open Spec
variable {F : Type}

/-- The positions of the directions `ds` in the directions of `p`. -/
def relDirs (p : Position) (ds : List ℕ) : List ℕ := ds.map fun d => p.dirs.idxOf d

/-- Mean, variance and type in direction `d`. -/
def dirData (p : Position) (d : ℕ) : ℝ × ℝ × String :=
  (p.mean.getD (p.dirs.idxOf d) 0, entryOf p.cov (p.dirs.idxOf d) (p.dirs.idxOf d), p.types.getD (p.dirs.idxOf d) "")

/-- The position restricted to the directions `ds`. -/
def subPos (p : Position) (ds : List ℕ) : Position := assemble ds (ds.map (dirData p))

open scoped Classical in
/-- The factors of `p` which depend on `ds`; and the constants if the direction `d0` belongs to `ds`. -/
noncomputable def subProduct (p : Product F) (d0 : ℕ) (ds : List ℕ) : Product F :=
  Multiset.filter (fun f => (∃ x ∈ f.1, x ∈ ds) ∨ (f.1 = ∅ ∧ d0 ∈ ds)) p

/-- The quadrature `q`, whose factor is the product `p`, restricted to the directions `ds`. -/
noncomputable def subQuad (q : HQuad F) (p : Product F) (ds : List ℕ) : HQuad F :=
  ⟨sub [] (relDirs q.position ds) q.nodes, sub [] (relDirs q.position ds) q.weights, subPos q.position ds,
    ⟨ds, {subProduct p (q.position.dirs.headD 0) ds}⟩⟩

theorem dirData_has {p : Position} (hp : PosOk p) {d : ℕ} (hd : d ∈ p.dirs) : Has p d (dirData p d) := by
  obtain ⟨x, hx⟩ := exists_has hp hd
  obtain ⟨r, h1, h2, h3, h4⟩ := idxOf_has hp hx
  have : dirData p d = x := by
    simp [dirData, entryOf, h1, h2, h3, h4]
  rw [this]
  exact hx

theorem pos_project_sub {p : Position} (hp : PosOk p) (hd : Diagonal p) {ds : List ℕ} (hs : ds.Pairwise (· < ·))
    (h : ∀ d ∈ ds, d ∈ p.dirs) : pos_project p ds = .ok (subPos p ds) := by
  obtain ⟨g, hg, e⟩ := (pos_project_spec hp hd.is_diag (hs.imp le_of_lt)).1 h
  rw [e, subPos]
  congr 2
  apply List.map_congr_left
  intro d hdd
  exact (hg d hdd).unique hp (dirData_has hp (h d hdd))

theorem subPos_ok (p : Position) {ds : List ℕ} (hs : ds.Pairwise (· < ·)) : PosOk (subPos p ds) :=
  assemble_ok (by simp) (hs.imp (ne_of_lt ·))

theorem subPos_diagonal (p : Position) (ds : List ℕ) : Diagonal (subPos p ds) := assemble_diagonal _ _

theorem subPos_dirs (p : Position) (ds : List ℕ) : (subPos p ds).dirs = ds := rfl

theorem subPos_dim (p : Position) (ds : List ℕ) : (subPos p ds).dim = ds.length := by simp [subPos, assemble]

theorem relDirs_lt {p : Position} (hp : PosOk p) {ds : List ℕ} (h : ∀ d ∈ ds, d ∈ p.dirs) : ∀ k ∈ relDirs p ds, k < p.dim := by
  intro k hk
  obtain ⟨d, hd, rfl⟩ := List.mem_map.1 hk
  rw [← hp.dirs]
  exact List.idxOf_lt_length_iff.2 (h d hd)

theorem relDirs_pairwise {p : Position} (hsd : p.dirs.Pairwise (· < ·)) {ds : List ℕ} (hs : ds.Pairwise (· < ·)) (h : ∀ d ∈ ds, d ∈ p.dirs) :
    (relDirs p ds).Pairwise (· < ·) := by
  rw [relDirs, List.pairwise_map]
  refine List.Pairwise.imp_of_mem ?_ hs
  intro a b ha hb hab
  have ia := List.idxOf_lt_length_iff.2 (h a ha)
  have ib := List.idxOf_lt_length_iff.2 (h b hb)
  by_contra hcon
  rcases Nat.lt_or_ge (p.dirs.idxOf b) (p.dirs.idxOf a) with hlt | hge
  · have := List.pairwise_iff_getElem.1 hsd _ _ ib ia hlt
    rw [List.getElem_idxOf, List.getElem_idxOf] at this
    omega
  · have he : p.dirs.idxOf a = p.dirs.idxOf b := by omega
    have e1 := List.getElem_idxOf ia
    have e2 := List.getElem_idxOf ib
    have : p.dirs[p.dirs.idxOf a] = p.dirs[p.dirs.idxOf b] := by simp only [he]
    rw [e1, e2] at this
    omega

theorem relDirs_nodup {p : Position} {ds : List ℕ} (hn : ds.Nodup) (h : ∀ d ∈ ds, d ∈ p.dirs) :
    (relDirs p ds).Nodup := by
  rw [relDirs]
  refine List.Nodup.map_on ?_ hn
  intro a ha b hb hab
  exact (List.idxOf_inj (h a ha)).1 hab

theorem toFn_single {f : SFn F} {p : Product F} (h : f.terms = {p}) : f.toFn = ⟨f.dirs, [p.toList]⟩ := by
  rw [SFn.toFn, h]
  simp

theorem Spec.SFnOk.fnOk {f : SFn F} (h : SFnOk f) : FnOk f.toFn := by
  refine ⟨h.sorted, ?_⟩
  intro args hargs a ha x hx
  simp only [SFn.toFn, Multiset.mem_toList, Multiset.mem_map] at hargs
  obtain ⟨p, hp, rfl⟩ := hargs
  exact h.vars p hp a (Multiset.mem_toList.1 ha) x hx

theorem do_fourier_sub {q : HQuad F} (hq : QuadOk q) (p : Product F) {ds : List ℕ} (h : ∀ d ∈ ds, d ∈ q.position.dirs) :
    (subQuad q p ds).do_fourier = sub 0 (relDirs q.position ds) q.do_fourier := by
  simp only [HQuad.do_fourier, subQuad, subPos, assemble, sub, relDirs, List.map_map]
  apply List.map_congr_left
  intro d hd
  have hi := relDirs_lt hq.pos h (q.position.dirs.idxOf d) (List.mem_map_of_mem hd)
  have hi : q.position.dirs.idxOf d < q.position.types.length := by rw [hq.pos.types]; exact hi
  simp [dirData, hi]

theorem Spec.QuadOk.dirs_ne {q : HQuad F} (hq : QuadOk q) : q.position.dirs ≠ [] := by
  intro h
  have := hq.grid.dim_pos
  rw [← List.length_pos_iff, hq.dim, ← hq.pos.dirs, h] at this
  simp at this

theorem Spec.QuadOk.sorted {q : HQuad F} (hq : QuadOk q) : q.position.dirs.Pairwise (· < ·) := hq.factorDirs ▸ hq.factor.sorted

theorem sub_uniform {l : List (List ℝ)} (h : uniform l) {b : List ℕ} (hb : ∀ k ∈ b, k < l.length) : uniform (sub [] b l) := by
  cases b with
  | nil => intro r hr; simp [sub] at hr
  | cons k b =>
    intro r hr
    obtain ⟨j, hj, rfl⟩ := List.mem_map.1 hr
    have h1 := hb j hj
    have h2 := hb k (by simp)
    simp only [sub, List.map_cons, List.getD_cons_zero]
    have e1 : l.getD j [] ∈ l := by simp [h1]
    have e2 : l.getD k [] ∈ l := by simp [h2]
    rw [h _ e1, h _ e2]

theorem Spec.QuadOk.uniform_weights {q : HQuad F} (hq : QuadOk q) : Hermipy.uniform q.weights := by
  intro r hr
  obtain ⟨i, hi, rfl⟩ := List.getElem_of_mem hr
  have hl : q.weights.length = q.nodes.length := by simpa using congrArg List.length hq.weights
  have key : ∀ j, (q.weights.getD j []).length = (q.nodes.getD j []).length := by
    intro j
    have := congrArg (fun l => l.getD j 0) hq.weights
    simp only [List.getD_eq_getElem?_getD, List.getElem?_map] at this
    by_cases hj : j < q.nodes.length
    · simpa [hj, hl] using this
    · simp [List.getElem?_eq_none (show q.nodes.length ≤ j by omega), List.getElem?_eq_none (show q.weights.length ≤ j by omega)]
  have h1 := key i
  have h0 := key 0
  have hu := hq.uniform (q.nodes.getD i []) (by simp [hl ▸ hi])
  rw [← h1, ← h0] at hu
  simpa [hi] using hu

theorem subQuad_ok {q : HQuad F} (hq : QuadOk q) (p : Product F) (hp : q.factor.terms = {p}) {ds : List ℕ} (hne : ds ≠ [])
    (hs : ds.Pairwise (· < ·)) (h : ∀ d ∈ ds, d ∈ q.position.dirs) (hc : ¬ Couples p.toList ds) : QuadOk (subQuad q p ds) where
  pos := subPos_ok _ hs
  diag := subPos_diagonal _ _
  dim := by simp [subQuad, sub_length, relDirs, subPos_dim]
  grid := by
    rw [do_fourier_sub hq p h]
    exact hq.grid.sub (by simpa [relDirs] using hne) (relDirs_nodup (hs.imp (ne_of_lt ·)) h)
      (by rw [hq.dim]; exact relDirs_lt hq.pos h)
  weights := sub_lengths_eq hq.weights _
  uniform := sub_uniform hq.uniform (by rw [hq.dim]; exact relDirs_lt hq.pos h)
  factor := by
    refine ⟨hs, ?_⟩
    intro t ht a ha d hd
    have ht : t = subProduct p (q.position.dirs.headD 0) ds := by simpa [subQuad] using ht
    rw [ht, subProduct, Multiset.mem_filter] at ha
    rcases ha.2 with ⟨x, hx, hxd⟩ | ⟨h0, -⟩
    · by_contra hdd
      exact hc ⟨a, Multiset.mem_toList.2 ha.1, ⟨x, hx, hxd⟩, d, hd, hdd⟩
    · rw [h0] at hd; simp at hd
  factorDirs := rfl

/-- `Quad.project` on directions which the factor does not couple to others. -/
theorem quad_project_ok {q : HQuad F} (hq : QuadOk q) {p : Product F} (hp : q.factor.terms = {p}) {ds : List ℕ}
    (hs : ds.Pairwise (· < ·)) (h : ∀ d ∈ ds, d ∈ q.position.dirs) (hc : ¬ Couples p.toList ds) :
    quad_project q ds = .ok (subQuad q p ds) := by
  obtain ⟨d0, ds', hd0⟩ := List.exists_cons_of_ne_nil hq.dirs_ne
  have hfn := hq.factor.fnOk
  have e1 : fn_project q.factor.toFn ds = .ok (ds, subProduct p (q.position.dirs.headD 0) ds) := by
    rw [fn_project_ok hfn (args := p.toList) (by rw [toFn_single hp]) (d0 := d0) (ds := ds')
      (by rw [← hd0, ← hq.factorDirs]; rfl) (hs.imp le_of_lt) hc, partOn, Multiset.coe_toList, hd0]
    rfl
  have e2 : ds.mapM (fun d => do
      let i ← pyindex q.position.dirs d
      let n ← pyget q.nodes i
      let w ← pyget q.weights i
      Out.ok (n, w)) = .ok (ds.map fun d => (q.nodes.getD (q.position.dirs.idxOf d) [], q.weights.getD (q.position.dirs.idxOf d) [])) := by
    refine mapM_ok fun d hd => ?_
    have hi : q.position.dirs.idxOf d < q.nodes.length := by
      rw [hq.dim]; exact relDirs_lt hq.pos h _ (List.mem_map_of_mem hd)
    have hi' : q.position.dirs.idxOf d < q.weights.length := by
      have hl : q.weights.length = q.nodes.length := by simpa using congrArg List.length hq.weights
      omega
    rw [pyindex, if_pos (h d hd), Out.ok_bind, pyget_some (List.getElem?_eq_getElem hi), Out.ok_bind,
      pyget_some (List.getElem?_eq_getElem hi'), Out.ok_bind]
    simp [hi, hi']
  rw [quad_project, e1, Out.ok_bind, pos_project_sub hq.pos hq.diag hs h, Out.ok_bind, subPos_dirs, e2, Out.ok_bind, mkQuad]
  have n1 : (ds.map fun d => (q.nodes.getD (q.position.dirs.idxOf d) [], q.weights.getD (q.position.dirs.idxOf d) [])).map Prod.fst =
      sub [] (relDirs q.position ds) q.nodes := by simp [sub, relDirs, Function.comp_def]
  have n2 : (ds.map fun d => (q.nodes.getD (q.position.dirs.idxOf d) [], q.weights.getD (q.position.dirs.idxOf d) [])).map Prod.snd =
      sub [] (relDirs q.position ds) q.weights := by simp [sub, relDirs, Function.comp_def]
  have hl : q.weights.length = q.nodes.length := by simpa using congrArg List.length hq.weights
  rw [n1, n2, if_neg]
  · rfl
  · simp only [not_or, not_not]
    exact ⟨sub_uniform hq.uniform (by rw [hq.dim]; exact relDirs_lt hq.pos h),
      sub_uniform hq.uniform_weights (by rw [hl, hq.dim]; exact relDirs_lt hq.pos h)⟩

theorem gridPoint_sub (p : Position) {ds : List ℕ} (P : List ℝ) {d : ℕ} (hd : d ∈ ds) :
    gridPoint (subPos p ds) (sub 0 (relDirs p ds) P) d = gridPoint p P d := by
  have hi := List.idxOf_lt_length_iff.2 hd
  have e1 : (subPos p ds).mean.getD (ds.idxOf d) 0 = p.mean.getD (p.dirs.idxOf d) 0 := by
    simp [subPos, assemble, dirData, hi]
  have e2 : entryOf (subPos p ds).cov (ds.idxOf d) (ds.idxOf d) = entryOf p.cov (p.dirs.idxOf d) (p.dirs.idxOf d) := by
    rw [subPos, assemble, entryOf_diagMat _ (by simpa) (by simpa), if_pos rfl]
    simp [dirData, hi]
  rw [gridPoint, gridPoint, subPos_dirs, e1, e2]
  congr 2
  simp [sub, relDirs, hi]

end Hermipy
