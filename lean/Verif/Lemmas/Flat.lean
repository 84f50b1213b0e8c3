import Verif.Lemmas.Rules
import Verif.Lemmas.QuadIntegrate
import Verif.Props.Position
import Verif.Spec.Flat
import Mathlib.Data.List.GetD

/-! # Integrals without weight -/

namespace Hermipy
open Spec MeasureTheory
variable {F : Type}

theorem density_list (p : Position) (x : ℕ → ℝ) : density p x = ((List.range p.dim).map (weight1D p x)).prod := by
  rw [density, ← List.prod_toFinset _ List.nodup_range, List.toFinset_range]

theorem density_pos {p : Position} (hv : PosVar p) (x : ℕ → ℝ) : 0 < density p x :=
  Finset.prod_pos fun i hi => weight1D_pos hv x (Finset.mem_range.1 hi)

theorem surplus_pos (p : Position) : 0 < surplus p := by
  have := Real.pi_pos
  rw [surplus]
  split
  · norm_num
  · exact Real.sqrt_pos.2 (by positivity)

/-- `pos_weight` in terms of the density. -/
theorem pos_weight_density {p : Position} (hp : PosOk p) (hd : Diagonal p) (h5 : ∀ d ∈ p.dirs, d < 5) (hv : PosVar p) (x : ℕ → ℝ) :
    pos_weight p x = .ok (density p x / surplus p) := by
  obtain ⟨w, e, -, hw⟩ := Props.C54_weight p x hp hd h5 hv
  rw [e, hw, surplus, density_list]
  congr 1
  by_cases h0 : hermiteDirs p = 0
  · rw [if_pos h0, if_pos h0, div_one, weight1D_prod hp]
    have := hermite_count p
    rw [h0, List.length_eq_zero_iff] at this
    rw [this]
    simp
  · rw [if_neg h0, if_neg h0]

section
variable [Interp F]

theorem density_congr {p : Position} (hp : PosOk p) {x y : ℕ → ℝ} (h : ∀ d ∈ p.dirs, x d = y d) : density p x = density p y := by
  refine Finset.prod_congr rfl fun i hi => ?_
  have hi : i < p.dirs.length := by rw [hp.dirs]; exact Finset.mem_range.1 hi
  rw [weight1D, weight1D, h _ (by simp [hi])]

/-- The values of the weight on the grid. -/
theorem weightGrid_ok {eig : Eig} (he : EigDiag eig) {q : HQuad F} (hq : QuadOk q) (h5 : ∀ d ∈ q.position.dirs, d < 5)
    (hv : PosVar q.position) : weightGrid eig q = .ok ((gridPoints q.nodes).map fun p =>
      density q.position (gridPoint q.position p) / surplus q.position) := by
  have hfac := pos_factor_diag he hq.pos hq.diag
  rw [weightGrid, pos_weight_density hq.pos hq.diag h5 hv, Out.ok_bind, if_neg (by simpa [isSorted] using hq.sorted.imp le_of_lt), hfac,
    discretize_ok (g := fun v => density q.position (fun d => v.getD (q.position.dirs.idxOf d) 0) / surplus q.position) hq.grid.dim_pos
    hq.grid.small (by rw [hq.pos.mean, hq.dim]) (by simp [diagMat, hq.dim]) (by simp [diagMat, hq.dim])]
  · congr 1
    apply List.map_congr_left
    intro p hp
    have hl := gridPoints_length hp
    congr 1
    apply density_congr hq.pos
    intro d hd
    have hi : q.position.dirs.idxOf d < q.position.dim := by rw [← hq.pos.dirs]; exact List.idxOf_lt_length_iff.2 hd
    rw [affine_diag (by simp [hl, hq.dim]), gridPoint]
    simp [hl, hq.dim, hi]
  · intro p _
    rw [pos_weight_density hq.pos hq.diag h5 hv]

theorem flatten_ok {eig : Eig} (he : EigDiag eig) {q : HQuad F} (hq : QuadOk q) (h5 : ∀ d ∈ q.position.dirs, d < 5)
    (hv : PosVar q.position) {values : List ℝ} (hl : values.length = (gridPoints q.nodes).length) :
    flatten eig q true values = .ok (List.zipWith (fun v p => surplus q.position * (v / density q.position (gridPoint q.position p)))
      values (gridPoints q.nodes)) := by
  rw [flatten, if_pos rfl, weightGrid_ok he hq h5 hv, Out.ok_bind, guardedDiv, broadcast, if_pos (by simpa using hl)]
  congr 1
  apply List.ext_getElem
  · simp
  · intro i h1 h2
    simp only [List.getElem_zipWith, List.getElem_map]
    have hs := surplus_pos q.position
    have hd := density_pos hv (gridPoint q.position ((gridPoints q.nodes)[i]'(by simp at h2; omega)))
    rw [if_neg (div_pos hd hs).ne']
    rw [mul_zero, zero_add, div_div_eq_mul_div]
    ring

/-- A flat integral. -/
theorem quad_integrate_flat_ok {slack : ℕ} {eig : Eig} (he : EigDiag eig) {q : HQuad F} (hq : QuadOk q) (hs : 0 ∈ q.do_fourier → 1 ≤ slack)
    (h5 : ∀ d ∈ q.position.dirs, d < 5) (hv : PosVar q.position) {f : Integrand F} {values : List ℝ} (hf : gridOf slack eig q f = .ok values)
    (hl : values.length = (gridPoints q.nodes).length) :
    quad_integrate_flat slack eig q true f = .ok (surplus q.position *
      quadrature q.nodes q.weights fun i p => values.getD i 0 / density q.position (gridPoint q.position p)) := by
  rw [quad_integrate_flat, hf, Out.ok_bind, flatten_ok he hq h5 hv hl, Out.ok_bind, integrate_ok hq.grid hs hq.weights (by simp [hl]),
    ← quadrature_smul]
  congr 1
  apply quadrature_congr
  intro i p hp
  obtain ⟨hi, rfl⟩ := List.getElem?_eq_some_iff.1 hp
  simp [hi, hl]

theorem quad_integrate_plain_ok {slack : ℕ} {eig : Eig} {q : HQuad F} (hq : QuadOk q) (hs : 0 ∈ q.do_fourier → 1 ≤ slack)
    {f : Integrand F} {values : List ℝ} (hf : gridOf slack eig q f = .ok values) (hl : values.length = (gridPoints q.nodes).length) :
    quad_integrate_flat slack eig q false f = .ok (quadrature q.nodes q.weights fun i _ => values.getD i 0) := by
  rw [quad_integrate_flat, hf, Out.ok_bind, flatten, if_neg (by simp), Out.ok_bind, integrate_ok hq.grid hs hq.weights hl]

theorem standsFor_grid {slack : ℕ} {eig : Eig} (he : EigDiag eig) {q : HQuad F} (hq : QuadOk q) (h5 : ∀ d ∈ q.position.dirs, d < 5)
    {f : Integrand F} {g : (ℕ → ℝ) → ℝ} (hf : StandsFor q.position.dirs f g) :
    gridOf slack eig q f = .ok ((gridPoints q.nodes).map fun p => g (gridPoint q.position p)) := by
  have hexpr : ∀ terms : Multiset (Product F), (∀ p ∈ terms, ∀ a ∈ p, ∀ d ∈ a.1, d ∈ q.position.dirs) →
      (∀ x, (terms.map fun p => productValue p x).sum = g x) → factorOf (.expr terms) q.position.dirs >>= quad_discretize eig q =
        .ok ((gridPoints q.nodes).map fun p => g (gridPoint q.position p)) := by
    intro terms h1 h2
    rw [factorOf, if_neg (by simpa [isSorted] using hq.sorted.imp le_of_lt), if_neg (by push Not; exact h5), if_neg, Out.ok_bind,
      quad_discretize_ok he hq rfl h1]
    · simp only [← h2]; rfl
    · rintro ⟨p, hp, x, ⟨a, ha, hx⟩, h⟩
      exact h (h1 p hp a ha x hx)
  cases f with
  | fn f =>
    obtain ⟨h1, h2, h3⟩ := hf
    rw [gridOf, quad_discretize_ok he hq h2 h1.vars]
    simp only [h3]
  | expr terms => exact hexpr terms hf.1 hf.2
  | text terms => exact hexpr terms hf.1 hf.2
  | grid values => exact hf.elim
  | series s => exact hf.elim

omit [Interp F] in
/-- The density of a restriction. -/
theorem density_sub (p : Position) {ds : List ℕ} (hn : ds.Nodup) (h : ∀ d ∈ ds, d ∈ p.dirs) (P : List ℝ) :
    density (subPos p ds) (gridPoint (subPos p ds) (sub 0 (relDirs p ds) P)) =
      (ds.map fun d => weight1D p (gridPoint p P) (p.dirs.idxOf d)).prod := by
  rw [density_list, subPos_dim]
  congr 1
  apply List.ext_getElem
  · simp
  · intro i h1 h2
    have hi : i < ds.length := by simpa using h1
    have hd := h _ (List.getElem_mem hi)
    have hk := List.idxOf_lt_length_iff.2 hd
    have e1 : (subPos p ds).types.getD i "" = p.types.getD (p.dirs.idxOf ds[i]) "" := by simp [subPos, assemble, dirData, hi]
    have e2 : (subPos p ds).mean.getD i 0 = p.mean.getD (p.dirs.idxOf ds[i]) 0 := by simp [subPos, assemble, dirData, hi]
    have e3 : entryOf (subPos p ds).cov i i = entryOf p.cov (p.dirs.idxOf ds[i]) (p.dirs.idxOf ds[i]) := by
      rw [subPos, assemble, entryOf_diagMat _ (by simpa) (by simpa), if_pos rfl]
      simp [dirData, hi]
    have e4 : (subPos p ds).dirs.getD i 0 = ds[i] := by rw [subPos_dirs]; simp [hi]
    have e5 : p.dirs.getD (p.dirs.idxOf ds[i]) 0 = ds[i] := by rw [List.getD_eq_getElem _ _ hk]; exact List.getElem_idxOf hk
    simp only [List.getElem_map, List.getElem_range]
    rw [weight1D, weight1D, e1, e2, e3, e4, e5, gridPoint_sub p P (List.getElem_mem hi)]

omit [Interp F] in
theorem density_blocks {q : HQuad F} (hq : QuadOk q) {args p : Product F} {bs : List (Finset ℕ)}
    (h : BlocksOk q.position.dirs.toFinset args p bs) (P : List ℝ) :
    (bs.map fun s => density (subPos q.position (s.sort (· ≤ ·))) (gridPoint (subPos q.position (s.sort (· ≤ ·)))
      (sub 0 (relDirs q.position (s.sort (· ≤ ·))) P))).prod = density q.position (gridPoint q.position P) := by
  have hn : q.position.dirs.Nodup := hq.sorted.imp (ne_of_lt ·)
  have e : ∀ s ∈ bs, density (subPos q.position (s.sort (· ≤ ·))) (gridPoint (subPos q.position (s.sort (· ≤ ·)))
      (sub 0 (relDirs q.position (s.sort (· ≤ ·))) P)) =
      ((s.sort (· ≤ ·)).map fun d => weight1D q.position (gridPoint q.position P) (q.position.dirs.idxOf d)).prod := by
    intro s hs
    exact density_sub _ (Finset.sort_nodup _ _) (fun d hd => List.mem_toFinset.1 (h.sort_mem hs d hd)) P
  rw [List.map_congr_left e, density_list]
  have hperm := ((h.flatten_perm hn).map fun d => weight1D q.position (gridPoint q.position P) (q.position.dirs.idxOf d)).prod_eq
  rw [List.map_flatten, List.prod_flatten, List.map_map, List.map_map] at hperm
  have e2 : q.position.dirs.map (fun d => weight1D q.position (gridPoint q.position P) (q.position.dirs.idxOf d)) =
      (List.range q.position.dim).map (weight1D q.position (gridPoint q.position P)) := by
    rw [← hq.pos.dirs, ← map_idxOf_self hn, List.map_map]
    rfl
  rw [← e2, ← hperm]
  rfl

omit [Interp F] in
/-- The blocks are not mixed if the factors are not. -/
theorem surplus_block {q : HQuad F} {args p : Product F} {bs : List (Finset ℕ)}
    (h : BlocksOk q.position.dirs.toFinset args p bs) (ha : Unmixed q.position args) (hp : Unmixed q.position p) {s : Finset ℕ} (hs : s ∈ bs) :
    surplus (subPos q.position (s.sort (· ≤ ·))) = 1 := by
  classical
  obtain ⟨U, hU⟩ : ∃ U, U = q.position.dirs.toFinset := ⟨_, rfl⟩
  rw [← hU] at h
  obtain ⟨T, hT⟩ : ∃ T : Finset (Finset ℕ), T = ({U.filter fun d => IsHermite q.position d, U.filter fun d => ¬ IsHermite q.position d} :
    Finset (Finset ℕ)).erase ∅ := ⟨_, rfl⟩
  have hmemT : ∀ b, b ∈ T ↔ b ≠ ∅ ∧ (b = U.filter (fun d => IsHermite q.position d) ∨ b = U.filter fun d => ¬ IsHermite q.position d) := by
    intro b
    simp [hT]
  have hpart : IsPartition U T := by
    refine ⟨?_, ?_, ?_⟩
    · intro b hb
      exact Finset.nonempty_iff_ne_empty.2 ((hmemT b).1 hb).1
    · intro b hb b' hb' x hx hx'
      rcases ((hmemT b).1 hb).2 with rfl | rfl <;> rcases ((hmemT b').1 hb').2 with rfl | rfl
      · rfl
      · exact absurd (Finset.mem_filter.1 hx).2 (Finset.mem_filter.1 hx').2
      · exact absurd (Finset.mem_filter.1 hx').2 (Finset.mem_filter.1 hx).2
      · rfl
    · intro x
      constructor
      · intro hx
        by_cases hk : IsHermite q.position x
        · have hm : x ∈ U.filter fun d => IsHermite q.position d := Finset.mem_filter.2 ⟨hx, hk⟩
          exact ⟨_, (hmemT _).2 ⟨Finset.ne_empty_of_mem hm, Or.inl rfl⟩, hm⟩
        · have hm : x ∈ U.filter fun d => ¬ IsHermite q.position d := Finset.mem_filter.2 ⟨hx, hk⟩
          exact ⟨_, (hmemT _).2 ⟨Finset.ne_empty_of_mem hm, Or.inr rfl⟩, hm⟩
      · rintro ⟨b, hb, hx⟩
        rcases ((hmemT b).1 hb).2 with rfl | rfl <;> exact (Finset.mem_filter.1 hx).1
  have hin : ∀ t : Product F, Unmixed q.position t → (∀ a ∈ t, a.1 ≠ ∅ → ∃ b ∈ bs, a.1 ⊆ b) → ∀ a ∈ t, a.1 ≠ ∅ → ∃ b ∈ T, a.1 ⊆ b := by
    intro t ht hb a hat hne
    obtain ⟨b, hbb, hab⟩ := hb a hat hne
    have haU : ∀ x ∈ a.1, x ∈ U := fun x hx => (h.partition.cover x).2 ⟨b, List.mem_toFinset.2 hbb, hab hx⟩
    obtain ⟨x, hx⟩ := Finset.nonempty_iff_ne_empty.2 hne
    by_cases hk : IsHermite q.position x
    · have hsub : a.1 ⊆ U.filter fun d => IsHermite q.position d := fun y hy => Finset.mem_filter.2 ⟨haU y hy, ht a hat x hx y hy hk⟩
      exact ⟨_, (hmemT _).2 ⟨Finset.ne_empty_of_mem (hsub hx), Or.inl rfl⟩, hsub⟩
    · have hsub : a.1 ⊆ U.filter fun d => ¬ IsHermite q.position d :=
        fun y hy => Finset.mem_filter.2 ⟨haU y hy, fun hy' => hk (ht a hat y hy x hx hy')⟩
      exact ⟨_, (hmemT _).2 ⟨Finset.ne_empty_of_mem (hsub hx), Or.inr rfl⟩, hsub⟩
  obtain ⟨c, hc, hsc⟩ := h.least T hpart (hin args ha h.inside) (hin p hp h.fac) s (List.mem_toFinset.2 hs)
  have htypes : (subPos q.position (s.sort (· ≤ ·))).types = (s.sort (· ≤ ·)).map fun d => q.position.types.getD (q.position.dirs.idxOf d) "" := by
    simp [subPos, assemble, dirData, Function.comp_def]
  rw [surplus]
  rcases ((hmemT c).1 hc).2 with rfl | rfl
  · have h0 : otherDirs (subPos q.position (s.sort (· ≤ ·))) = 0 := by
      rw [otherDirs, htypes, List.length_eq_zero_iff, List.filter_eq_nil_iff]
      intro t ht
      obtain ⟨d, hd, rfl⟩ := List.mem_map.1 ht
      have := (Finset.mem_filter.1 (hsc ((Finset.mem_sort _).1 hd))).2
      simpa [IsHermite] using this
    rw [h0]
    simp
  · rw [if_pos]
    rw [hermiteDirs, htypes, List.length_eq_zero_iff, List.filter_eq_nil_iff]
    intro t ht
    obtain ⟨d, hd, rfl⟩ := List.mem_map.1 ht
    have := (Finset.mem_filter.1 (hsc ((Finset.mem_sort _).1 hd))).2
    simpa [IsHermite] using this

theorem flat_term {q : HQuad F} (hq : QuadOk q) {args p : Product F} {bs : List (Finset ℕ)}
    (h : BlocksOk q.position.dirs.toFinset args p bs) :
    (bs.map fun s => quadrature (subQuad q p (s.sort (· ≤ ·))).nodes (subQuad q p (s.sort (· ≤ ·))).weights fun _ x =>
      productValue (blockPart args s) (gridPoint (subQuad q p (s.sort (· ≤ ·))).position x) /
        density (subQuad q p (s.sort (· ≤ ·))).position (gridPoint (subQuad q p (s.sort (· ≤ ·))).position x)).prod *
        productValue (constPart args) (fun _ => 0) =
    quadrature q.nodes q.weights fun _ x => productValue args (gridPoint q.position x) / density q.position (gridPoint q.position x) := by
  have hpart := h.rel_partition hq
  have e := quadrature_blocks hq.weights hpart (fun b x =>
    productValue (blockPart args (bs.getD b ∅)) (gridPoint (subPos q.position ((bs.getD b ∅).sort (· ≤ ·))) x) /
      density (subPos q.position ((bs.getD b ∅).sort (· ≤ ·))) (gridPoint (subPos q.position ((bs.getD b ∅).sort (· ≤ ·))) x))
  rw [List.length_map] at e
  have hb : ∀ b ∈ Finset.range bs.length, (bs.map fun s => relDirs q.position (s.sort (· ≤ ·))).getD b [] =
      relDirs q.position ((bs.getD b ∅).sort (· ≤ ·)) := by
    intro b hb
    have := Finset.mem_range.1 hb
    simp [this]
  rw [list_prod_range bs ∅, mul_comm]
  have e2 : ∏ i ∈ Finset.range bs.length, quadrature (subQuad q p ((bs.getD i ∅).sort (· ≤ ·))).nodes
      (subQuad q p ((bs.getD i ∅).sort (· ≤ ·))).weights (fun _ x =>
      productValue (blockPart args (bs.getD i ∅)) (gridPoint (subQuad q p ((bs.getD i ∅).sort (· ≤ ·))).position x) /
        density (subQuad q p ((bs.getD i ∅).sort (· ≤ ·))).position (gridPoint (subQuad q p ((bs.getD i ∅).sort (· ≤ ·))).position x)) =
      ∏ b ∈ Finset.range bs.length, quadrature (sub [] ((bs.map fun s => relDirs q.position (s.sort (· ≤ ·))).getD b []) q.nodes)
        (sub [] ((bs.map fun s => relDirs q.position (s.sort (· ≤ ·))).getD b []) q.weights) (fun _ x =>
        productValue (blockPart args (bs.getD b ∅)) (gridPoint (subPos q.position ((bs.getD b ∅).sort (· ≤ ·))) x) /
          density (subPos q.position ((bs.getD b ∅).sort (· ≤ ·))) (gridPoint (subPos q.position ((bs.getD b ∅).sort (· ≤ ·))) x)) := by
    apply Finset.prod_congr rfl
    intro b hbm
    rw [hb b hbm]
    rfl
  rw [e2, ← e, ← quadrature_smul]
  apply quadrature_congr
  intro i x hx
  conv_rhs => rw [← constPart_add h, productValue_add, productValue_sum, List.map_map, list_prod_range bs ∅, ← density_blocks hq h x,
    list_prod_range bs ∅, mul_div_assoc, ← Finset.prod_div_distrib]
  rw [constPart_value args (fun _ => 0) (gridPoint q.position x)]
  congr 1
  apply Finset.prod_congr rfl
  intro b hbm
  rw [hb b hbm]
  simp only [Function.comp_apply]
  congr 1
  apply productValue_congr
  intro a ha d hd
  rw [blockPart, Multiset.mem_filter] at ha
  exact gridPoint_sub _ _ ((Finset.mem_sort _).2 (ha.2.2 hd))

omit [Interp F] in
theorem posVar_sub {p : Position} (hp : PosOk p) (hv : PosVar p) {ds : List ℕ} (h : ∀ d ∈ ds, d ∈ p.dirs) : PosVar (subPos p ds) := by
  intro i hi ht
  rw [subPos_dim] at hi
  have e1 : (subPos p ds).types.getD i "" = p.types.getD (p.dirs.idxOf ds[i]) "" := by simp [subPos, assemble, dirData, hi]
  have e3 : entryOf (subPos p ds).cov i i = entryOf p.cov (p.dirs.idxOf ds[i]) (p.dirs.idxOf ds[i]) := by
    rw [subPos, assemble, entryOf_diagMat _ (by simpa) (by simpa), if_pos rfl]
    simp [dirData, hi]
  rw [e3]
  exact hv _ (by rw [← hp.dirs]; exact List.idxOf_lt_length_iff.2 (h _ (List.getElem_mem hi))) (e1 ▸ ht)

/-- The tensorized flat integral. -/
theorem flat_tensorize_ok {order : ℕ → Finset (Finset ℕ) → List (Finset ℕ)} (ho : OrderOk order) (k : ℕ) {slack : ℕ} {eig : Eig}
    (he : EigDiag eig) {q : HQuad F} (hq : QuadOk q) {p : Product F} (hp : q.factor.terms = {p}) (hs : 0 ∈ q.do_fourier → 1 ≤ slack)
    (h5 : ∀ d ∈ q.position.dirs, d < 5) (hvar : PosVar q.position) {f : SFn F} (hf : SFnOk f) (hd : f.dirs = q.position.dirs)
    (hne : f.terms ≠ 0) (hup : Unmixed q.position p) (huf : ∀ args ∈ f.terms, Unmixed q.position args) :
    quad_integrate_flat_tensorize order k slack eig q true f =
      .ok (quadrature q.nodes q.weights fun _ x => f.value (gridPoint q.position x) / density q.position (gridPoint q.position x)) := by
  obtain ⟨L, hL, e⟩ := tensorize_at_ok ho k (func := fun q f => quad_integrate_flat slack eig q true (.fn f))
    (tens := fun rs => .ok (rs.map Prod.snd).prod)
    (scale := fun r c => .ok (r * c)) (plus := fun r s => .ok (r + s)) hq hp hf hd
    (v := fun args s => quadrature (subQuad q p (s.sort (· ≤ ·))).nodes (subQuad q p (s.sort (· ≤ ·))).weights fun _ x =>
      productValue (blockPart args s) (gridPoint (subQuad q p (s.sort (· ≤ ·))).position x) /
        density (subQuad q p (s.sort (· ≤ ·))).position (gridPoint (subQuad q p (s.sort (· ≤ ·))).position x))
    (r := fun args => quadrature q.nodes q.weights fun _ x => productValue args (gridPoint q.position x) /
      density q.position (gridPoint q.position x))
    (by
      intro args hargs bs hb s hsb
      have hmem : ∀ d ∈ s.sort (· ≤ ·), d ∈ q.position.dirs := fun d hd => List.mem_toFinset.1 (hb.sort_mem hsb d hd)
      have hok := subQuad_ok hq p hp (hb.sort_ne hsb) (sorted_sort s) hmem (hb.not_couples hsb)
      have h5' : ∀ d ∈ (subQuad q p (s.sort (· ≤ ·))).position.dirs, d < 5 := fun d hd => h5 d (hmem d hd)
      have hvars : ∀ p' ∈ ({blockPart args s} : Multiset (Product F)), ∀ a ∈ p', ∀ d ∈ a.1, d ∈ s.sort (· ≤ ·) := by
        intro p' hp' a ha d hdd
        rw [Multiset.mem_singleton] at hp'
        rw [hp', blockPart, Multiset.mem_filter] at ha
        exact (Finset.mem_sort _).2 (ha.2.2 hdd)
      have hg := standsFor_grid (slack := slack) he hok h5' (f := .fn ⟨s.sort (· ≤ ·), {blockPart args s}⟩)
        (g := fun x => productValue (blockPart args s) x) ⟨⟨sorted_sort s, hvars⟩, rfl, by simp [SFn.value]⟩
      rw [quad_integrate_flat_ok he hok _ h5' (posVar_sub hq.pos hvar hmem) hg (by simp)]
      · rw [show (subQuad q p (s.sort (· ≤ ·))).position = subPos q.position (s.sort (· ≤ ·)) from rfl,
          surplus_block hb (huf args hargs) hup hsb, one_mul]
        congr 1
        apply quadrature_congr
        intro i x hx
        obtain ⟨hi, rfl⟩ := List.getElem?_eq_some_iff.1 hx
        simp [hi]
      · intro h0
        apply hs
        rw [do_fourier_sub hq p hmem, sub, List.mem_map] at h0
        obtain ⟨i, hi, h0⟩ := h0
        have hlt := relDirs_lt hq.pos hmem i hi
        have hlt : i < q.do_fourier.length := by rw [hq.grid.flags.1, hq.dim]; exact hlt
        rw [← h0]
        simp [hlt])
    (by
      intro args hargs bs hb
      refine ⟨_, rfl, ?_⟩
      rw [List.map_map, ← flat_term hq hb]
      rfl)
  rw [quad_integrate_flat_tensorize, e]
  have hsum : (L.map fun args => quadrature q.nodes q.weights fun _ x => productValue args (gridPoint q.position x) /
      density q.position (gridPoint q.position x)).sum =
      quadrature q.nodes q.weights fun _ x => f.value (gridPoint q.position x) / density q.position (gridPoint q.position x) := by
    have : ∀ x, f.value x = (L.map fun args => productValue args x).sum := by
      intro x
      rw [SFn.value, ← hL, Multiset.map_coe, Multiset.sum_coe]
    simp only [this]
    clear this hL e
    induction L with
    | nil => simp [quadrature]
    | cons a L ih => simp only [List.map_cons, List.sum_cons, add_div, quadrature_add, ih]
  have hfold : ∀ (l : List ℝ) (a : ℝ), l.foldlM (fun r s => (Out.ok (r + s) : Out ℝ)) a = .ok (a + l.sum) := by
    intro l
    induction l with
    | nil => intro a; simp [pure]
    | cons b l ih => intro a; rw [List.foldlM_cons, Out.ok_bind, ih]; simp [add_assoc]
  cases L with
  | nil => exact absurd (by simpa using hL.symm) hne
  | cons a L =>
    simp only [List.map_cons, List.sum_cons] at hsum ⊢
    rw [hfold, hsum]

end

/-- The integral of a polynomial against the normal distribution is its integral with the density. -/
theorem integral_normal {pos : Position} (hp : PosOk pos) (hv : ∀ i < pos.dim, 0 < entryOf pos.cov i i) {m : ℕ} {a : ℕ → ℝ} {k : ℕ → ℕ → ℕ}
    {g : (ℕ → ℝ) → ℝ} (hg : Separated m pos.dirs a (fun t i y => y ^ k t i) g) :
    ∫ x, g (place pos.dirs x) ∂(normal pos) = ∫ x, g (place pos.dirs x) *
      ∏ i : Fin pos.dirs.length, normalDensity (pos.mean.getD i 0) (entryOf pos.cov i i) (x i) := by
  have hpdf : ∀ i < pos.dim, ∀ y, ProbabilityTheory.gaussianPDFReal (pos.mean.getD i 0) (Real.toNNReal (entryOf pos.cov i i)) y =
      normalDensity (pos.mean.getD i 0) (entryOf pos.cov i i) y := by
    intro i hi y
    rw [ProbabilityTheory.gaussianPDFReal, normalDensity, Real.coe_toNNReal _ (hv i hi).le, one_div, neg_div]
  have hne : ∀ i < pos.dim, Real.toNNReal (entryOf pos.cov i i) ≠ 0 := fun i hi => (Real.toNNReal_pos.2 (hv i hi)).ne'
  have hlt : ∀ i : Fin pos.dirs.length, (i : ℕ) < pos.dim := fun i => by rw [← hp.dirs]; exact i.2
  have hpow : ∀ t, ∀ i : Fin pos.dirs.length, Integrable (fun y : ℝ => y ^ k t i)
      (ProbabilityTheory.gaussianReal (pos.mean.getD i 0) (Real.toNNReal (entryOf pos.cov i i))) :=
    fun t i => integrable_pow _ (hv i (hlt i)).le _
  rw [normal, integral_separated hp.nodup _ hg hpow]
  have hsep : Separated m pos.dirs a (fun t i y => y ^ k t i * normalDensity (pos.mean.getD i 0) (entryOf pos.cov i i) y)
      (fun x => g x * ∏ i : Fin pos.dirs.length, normalDensity (pos.mean.getD i 0) (entryOf pos.cov i i) (x (pos.dirs.get i))) := by
    intro x
    simp only
    rw [hg x, Finset.sum_mul]
    refine Finset.sum_congr rfl fun t _ => ?_
    rw [mul_assoc, ← Finset.prod_mul_distrib]
  have hint : ∀ t, ∀ i : Fin pos.dirs.length, Integrable (fun y : ℝ => y ^ k t i * normalDensity (pos.mean.getD i 0) (entryOf pos.cov i i) y)
      volume := by
    intro t i
    have := hpow t i
    rw [ProbabilityTheory.gaussianReal_of_var_ne_zero _ (hne i (hlt i)), integrable_withDensity_iff
      (ProbabilityTheory.measurable_gaussianPDF _ _) (Filter.Eventually.of_forall fun _ => ProbabilityTheory.gaussianPDF_lt_top)] at this
    refine this.congr (Filter.Eventually.of_forall fun y => ?_)
    simp only [ProbabilityTheory.toReal_gaussianPDF, hpdf i (hlt i)]
  have := integral_separated hp.nodup (fun _ => volume) hsep hint
  rw [← volume_pi] at this
  simp only [place_get hp.nodup] at this
  rw [this]
  refine Finset.sum_congr rfl fun t _ => ?_
  congr 1
  refine Finset.prod_congr rfl fun i _ => ?_
  rw [ProbabilityTheory.integral_gaussianReal_eq_integral_smul (hne i (hlt i))]
  refine integral_congr_ae (Filter.Eventually.of_forall fun y => ?_)
  simp only [hpdf i (hlt i), smul_eq_mul]
  ring

/-- Parseval's identity for exact rules. -/
theorem quadrature_square {nodes weights : List (List ℝ)} (hw : weights.map List.length = nodes.map List.length)
    {fourier : List Nat} {degree : Nat}
    (ho : ∀ k < nodes.length, Orthonormal degree (fourier.getD k 0) (nodes.getD k []) (weights.getD k []))
    {L : List IVec} (hnd : L.Nodup) (hlen : ∀ m ∈ L, m.length = nodes.length) (hle : ∀ m ∈ L, ∀ x ∈ m, x ≤ degree) (c : List ℝ)
    (hc : c.length = L.length) :
    quadrature nodes weights (fun _ p => series nodes.length fourier L c p ^ 2) = (c.map fun x => x ^ 2).sum := by
  have e : (fun (_ : ℕ) p => series nodes.length fourier L c p ^ 2) = fun i p => ∑ j ∈ Finset.range L.length,
      (fun j (_ : ℕ) p => c.getD j 0 * (series nodes.length fourier L c p * basis nodes.length fourier (L.getD j []) p)) j i p := by
    funext _ p
    rw [pow_two]
    conv_lhs => lhs; rw [series]
    rw [Finset.sum_mul]
    refine Finset.sum_congr rfl fun t _ => ?_
    ring
  rw [e, quadrature_sum]
  have e2 : ∀ j ∈ Finset.range L.length, quadrature nodes weights (fun (_ : ℕ) p => c.getD j 0 *
      (series nodes.length fourier L c p * basis nodes.length fourier (L.getD j []) p)) = c.getD j 0 ^ 2 := by
    intro j hj
    have hj := Finset.mem_range.1 hj
    rw [quadrature_smul, List.getD_eq_getElem _ _ hj, quadrature_series hw ho hnd hlen hle c hj, pow_two]
  rw [Finset.sum_congr rfl e2, ← hc]
  clear e e2
  rw [Finset.sum_range, ← List.sum_ofFn]
  congr 1
  apply List.ext_getElem
  · simp
  · intro i h1 h2
    have : i < c.length := by simpa using h1
    simp [this]

end Hermipy
