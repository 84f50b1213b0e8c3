import Verif.Lemmas.QuadTensorize
import Verif.Lemmas.GridBlocks
import Verif.Lemmas.TransformLaws

/-! # Integrals of products -/

namespace Hermipy
open Spec
variable {F : Type}

theorem blockPart_sum {U : Finset ℕ} {args p : Product F} {bs : List (Finset ℕ)} (h : BlocksOk U args p bs) :
    (bs.map fun s => blockPart args s).sum = Multiset.filter (fun f => f.1 ≠ ∅) args := by
  refine sum_filter bs (fun s f => f.1 ≠ ∅ ∧ f.1 ⊆ s) _ args ?_ ?_
  · refine List.Pairwise.imp_of_mem ?_ h.nodup
    rintro s s' hs hs' hne f - ⟨h0, h1⟩ ⟨-, h2⟩
    obtain ⟨x, hx⟩ := Finset.nonempty_iff_ne_empty.2 h0
    exact hne (h.partition.disjoint s (List.mem_toFinset.2 hs) s' (List.mem_toFinset.2 hs') x (h1 hx) (h2 hx))
  · intro f hf
    constructor
    · intro h0
      obtain ⟨b, hb, hfb⟩ := h.inside f hf h0
      exact ⟨b, hb, h0, hfb⟩
    · rintro ⟨s, -, h0, -⟩
      exact h0

theorem constPart_add {U : Finset ℕ} {args p : Product F} {bs : List (Finset ℕ)} (h : BlocksOk U args p bs) :
    constPart args + (bs.map fun s => blockPart args s).sum = args := by
  rw [blockPart_sum h, constPart]
  exact Multiset.filter_add_not _ _

theorem BlocksOk.sort_mem {U : Finset ℕ} {args p : Product F} {bs : List (Finset ℕ)} (h : BlocksOk U args p bs) {s : Finset ℕ} (hs : s ∈ bs) :
    ∀ d ∈ s.sort (· ≤ ·), d ∈ U := by
  intro d hd
  rw [Finset.mem_sort] at hd
  exact (h.partition.cover d).2 ⟨s, List.mem_toFinset.2 hs, hd⟩

theorem BlocksOk.sort_ne {U : Finset ℕ} {args p : Product F} {bs : List (Finset ℕ)} (h : BlocksOk U args p bs) {s : Finset ℕ} (hs : s ∈ bs) :
    s.sort (· ≤ ·) ≠ [] := by
  obtain ⟨x, hx⟩ := h.partition.nonempty s (List.mem_toFinset.2 hs)
  intro h0
  have : x ∈ s.sort (· ≤ ·) := (Finset.mem_sort _).2 hx
  rw [h0] at this
  simp at this

theorem BlocksOk.flatten_perm {dirs : List ℕ} (hn : dirs.Nodup) {args p : Product F} {bs : List (Finset ℕ)}
    (h : BlocksOk dirs.toFinset args p bs) : (bs.map fun s => s.sort (· ≤ ·)).flatten.Perm dirs := by
  rw [List.perm_ext_iff_of_nodup _ hn]
  · intro x
    simp only [List.mem_flatten, List.mem_map]
    rw [← List.mem_toFinset, h.partition.cover]
    constructor
    · rintro ⟨l, ⟨s, hs, rfl⟩, hx⟩
      exact ⟨s, List.mem_toFinset.2 hs, (Finset.mem_sort _).1 hx⟩
    · rintro ⟨s, hs, hx⟩
      exact ⟨_, ⟨s, List.mem_toFinset.1 hs, rfl⟩, (Finset.mem_sort _).2 hx⟩
  · rw [List.nodup_flatten]
    refine ⟨?_, ?_⟩
    · intro l hl
      obtain ⟨s, -, rfl⟩ := List.mem_map.1 hl
      exact Finset.sort_nodup _ _
    · rw [List.pairwise_map]
      refine List.Pairwise.imp_of_mem ?_ h.nodup
      intro s s' hs hs' hne x hx hx'
      rw [Finset.mem_sort] at hx hx'
      exact hne (h.partition.disjoint s (List.mem_toFinset.2 hs) s' (List.mem_toFinset.2 hs') x hx hx')

theorem map_idxOf_self {l : List ℕ} (h : l.Nodup) : l.map (fun d => l.idxOf d) = List.range l.length := by
  apply List.ext_getElem
  · simp
  · intro i h1 h2
    simp [h.idxOf_getElem]

theorem BlocksOk.rel_partition {q : HQuad F} (hq : QuadOk q) {args p : Product F} {bs : List (Finset ℕ)}
    (h : BlocksOk q.position.dirs.toFinset args p bs) :
    Partition q.nodes.length (bs.map fun s => relDirs q.position (s.sort (· ≤ ·))) where
  inc := by
    intro d hd
    obtain ⟨s, hs, rfl⟩ := List.mem_map.1 hd
    refine ⟨?_, relDirs_pairwise hq.sorted (sorted_sort s) fun d hd => List.mem_toFinset.1 (h.sort_mem hs d hd)⟩
    simpa [relDirs] using h.sort_ne hs
  perm := by
    have hn : q.position.dirs.Nodup := hq.sorted.imp (ne_of_lt ·)
    have := (h.flatten_perm hn).map fun d => q.position.dirs.idxOf d
    rw [map_idxOf_self hn, hq.pos.dirs, ← hq.dim, List.map_flatten, List.map_map] at this
    exact this

section
variable [Interp F]

theorem quad_integrate_ok {slack : ℕ} {eig : Eig} (he : EigDiag eig) {q : HQuad F} (hq : QuadOk q) (hs : 0 ∈ q.do_fourier → 1 ≤ slack)
    {f : SFn F} (hd : f.dirs = q.position.dirs) (hv : ∀ p ∈ f.terms, ∀ a ∈ p, ∀ d ∈ a.1, d ∈ f.dirs) :
    quad_integrate slack eig q f = .ok (quadrature q.nodes q.weights fun _ p => f.value (gridPoint q.position p)) := by
  rw [quad_integrate, quad_discretize_ok he hq hd hv, Out.ok_bind, integrate_ok hq.grid hs hq.weights (by simp)]
  congr 1
  apply quadrature_congr
  intro i p hp
  simp [hp]

theorem constPart_value (args : Product F) (x y : ℕ → ℝ) : productValue (constPart args) x = productValue (constPart args) y := by
  apply productValue_congr
  intro a ha d hd
  rw [constPart, Multiset.mem_filter] at ha
  rw [ha.2] at hd
  simp at hd

theorem list_prod_range {β : Type} (l : List β) (b : β) (g : β → ℝ) : (l.map g).prod = ∏ i ∈ Finset.range l.length, g (l.getD i b) := by
  rw [← Fin.prod_univ_eq_prod_range (fun i => g (l.getD i b)), ← List.prod_ofFn]
  congr 1
  apply List.ext_getElem
  · simp
  · intro i h1 h2
    have : i < l.length := by simpa using h1
    simp [this]

theorem quad_integrate_term {q : HQuad F} (hq : QuadOk q) {args p : Product F} {bs : List (Finset ℕ)}
    (h : BlocksOk q.position.dirs.toFinset args p bs) :
    (bs.map fun s => quadrature (subQuad q p (s.sort (· ≤ ·))).nodes (subQuad q p (s.sort (· ≤ ·))).weights fun _ x =>
      productValue (blockPart args s) (gridPoint (subQuad q p (s.sort (· ≤ ·))).position x)).prod *
        productValue (constPart args) (fun _ => 0) =
    quadrature q.nodes q.weights fun _ x => productValue args (gridPoint q.position x) := by
  have hpart := h.rel_partition hq
  have e := quadrature_blocks hq.weights hpart (fun b x =>
    productValue (blockPart args (bs.getD b ∅)) (gridPoint (subPos q.position ((bs.getD b ∅).sort (· ≤ ·))) x))
  rw [List.length_map] at e
  have hb : ∀ b ∈ Finset.range bs.length, (bs.map fun s => relDirs q.position (s.sort (· ≤ ·))).getD b [] =
      relDirs q.position ((bs.getD b ∅).sort (· ≤ ·)) := by
    intro b hb
    have := Finset.mem_range.1 hb
    simp [this]
  rw [list_prod_range bs ∅, mul_comm]
  have e2 : ∏ i ∈ Finset.range bs.length, quadrature (subQuad q p ((bs.getD i ∅).sort (· ≤ ·))).nodes
      (subQuad q p ((bs.getD i ∅).sort (· ≤ ·))).weights (fun _ x =>
      productValue (blockPart args (bs.getD i ∅)) (gridPoint (subQuad q p ((bs.getD i ∅).sort (· ≤ ·))).position x)) =
      ∏ b ∈ Finset.range bs.length, quadrature (sub [] ((bs.map fun s => relDirs q.position (s.sort (· ≤ ·))).getD b []) q.nodes)
        (sub [] ((bs.map fun s => relDirs q.position (s.sort (· ≤ ·))).getD b []) q.weights) (fun _ x =>
        productValue (blockPart args (bs.getD b ∅)) (gridPoint (subPos q.position ((bs.getD b ∅).sort (· ≤ ·))) x)) := by
    apply Finset.prod_congr rfl
    intro b hbm
    rw [hb b hbm]
    rfl
  rw [e2, ← e, ← quadrature_smul]
  apply quadrature_congr
  intro i x hx
  conv_rhs => rw [← constPart_add h, productValue_add, productValue_sum, List.map_map, list_prod_range bs ∅]
  rw [constPart_value args (fun _ => 0) (gridPoint q.position x)]
  congr 1
  apply Finset.prod_congr rfl
  intro b hbm
  rw [hb b hbm]
  simp only [Function.comp_apply]
  apply productValue_congr
  intro a ha d hd
  rw [blockPart, Multiset.mem_filter] at ha
  exact gridPoint_sub _ _ ((Finset.mem_sort _).2 (ha.2.2 hd))

/-- The tensorized integral is the integral. -/
theorem quad_integrate_tensorize_ok {order : ℕ → Finset (Finset ℕ) → List (Finset ℕ)} (ho : OrderOk order) (k : ℕ) {slack : ℕ} {eig : Eig}
    (he : EigDiag eig) {q : HQuad F} (hq : QuadOk q) {p : Product F} (hp : q.factor.terms = {p}) (hs : 0 ∈ q.do_fourier → 1 ≤ slack)
    {f : SFn F} (hf : SFnOk f) (hd : f.dirs = q.position.dirs) (hne : f.terms ≠ 0) :
    quad_integrate_tensorize order k slack eig q f = .ok (quadrature q.nodes q.weights fun _ x => f.value (gridPoint q.position x)) := by
  obtain ⟨L, hL, e⟩ := tensorize_at_ok ho k (func := quad_integrate slack eig) (tens := fun rs => .ok (rs.map Prod.snd).prod)
    (scale := fun r c => .ok (r * c)) (plus := fun r s => .ok (r + s)) hq hp hf hd
    (v := fun args s => quadrature (subQuad q p (s.sort (· ≤ ·))).nodes (subQuad q p (s.sort (· ≤ ·))).weights fun _ x =>
      productValue (blockPart args s) (gridPoint (subQuad q p (s.sort (· ≤ ·))).position x))
    (r := fun args => quadrature q.nodes q.weights fun _ x => productValue args (gridPoint q.position x))
    (by
      intro args hargs bs hb s hsb
      have hmem : ∀ d ∈ s.sort (· ≤ ·), d ∈ q.position.dirs := fun d hd => List.mem_toFinset.1 (hb.sort_mem hsb d hd)
      rw [quad_integrate_ok he (subQuad_ok hq p hp (hb.sort_ne hsb) (sorted_sort s) hmem (hb.not_couples hsb)) _ rfl]
      · simp [SFn.value]
      · intro p' hp' a ha d hdd
        rw [Multiset.mem_singleton] at hp'
        rw [hp', blockPart, Multiset.mem_filter] at ha
        exact (Finset.mem_sort _).2 (ha.2.2 hdd)
      · intro h0
        apply hs
        rw [do_fourier_sub hq p hmem, sub, List.mem_map] at h0
        obtain ⟨i, hi, h0⟩ := h0
        have hlt := relDirs_lt hq.pos hmem i hi
        have hlt : i < q.do_fourier.length := by rw [hq.grid.flags.1, hq.dim]; exact hlt
        rw [← h0]
        simp [hlt])
    (by
      intro args hargs bs hb
      refine ⟨_, rfl, ?_⟩
      rw [List.map_map, ← quad_integrate_term hq hb]
      rfl)
  rw [quad_integrate_tensorize, e]
  have hsum : (L.map fun args => quadrature q.nodes q.weights fun _ x => productValue args (gridPoint q.position x)).sum =
      quadrature q.nodes q.weights fun _ x => f.value (gridPoint q.position x) := by
    have : ∀ x, f.value x = (L.map fun args => productValue args x).sum := by
      intro x
      rw [SFn.value, ← hL, Multiset.map_coe, Multiset.sum_coe]
    simp only [this]
    clear this hL e
    induction L with
    | nil => simp [quadrature]
    | cons a L ih => simp only [List.map_cons, List.sum_cons, quadrature_add, ih]
  have hfold : ∀ (l : List ℝ) (a : ℝ), l.foldlM (fun r s => (Out.ok (r + s) : Out ℝ)) a = .ok (a + l.sum) := by
    intro l
    induction l with
    | nil => intro a; simp [pure]
    | cons b l ih => intro a; rw [List.foldlM_cons, Out.ok_bind, ih]; simp [add_assoc]
  cases L with
  | nil => exact absurd (by simpa using hL.symm) hne
  | cons a L =>
    simp only [List.map_cons, List.sum_cons] at hsum ⊢
    rw [hfold, hsum]

end

end Hermipy
