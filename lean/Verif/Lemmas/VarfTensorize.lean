import Verif.Model.VarfObject
import Verif.Lemmas.QuadTransform
import Verif.Lemmas.TensorizeMats
import Verif.Lemmas.Sparse
import Verif.Props.Position

/-! # Products of variational forms -/

namespace Hermipy
open Spec

/-! ## Relabelling of directions -/

theorem tensorize_dirs_map (φ : ℕ → ℕ) : ∀ (as bs : List ℕ) (i : ℕ), (∀ a ∈ as, ∀ b ∈ bs, (φ a < φ b ↔ a < b)) →
    tensorize_dirs i (as.map φ) (bs.map φ) = ((tensorize_dirs i as bs).1.map φ, (tensorize_dirs i as bs).2)
  | [], [], i, _ => by simp [tensorize_dirs]
  | a :: as, [], i, h => by
    have ih := tensorize_dirs_map φ as [] (i + 1) (by simp)
    simp only [List.map_cons, List.map_nil] at ih ⊢
    rw [tensorize_dirs, tensorize_dirs, ih]
    rfl
  | [], b :: bs, i, h => by
    have ih := tensorize_dirs_map φ [] bs (i + 1) (by simp)
    simp only [List.map_cons, List.map_nil] at ih ⊢
    rw [tensorize_dirs, tensorize_dirs, ih]
    rfl
  | a :: as, b :: bs, i, h => by
    have ih1 := tensorize_dirs_map φ as (b :: bs) (i + 1) (fun x hx y hy => h x (by simp [hx]) y hy)
    have ih2 := tensorize_dirs_map φ (a :: as) bs (i + 1) (fun x hx y hy => h x hx y (by simp [hy]))
    have hab := h a (by simp) b (by simp)
    simp only [List.map_cons] at ih1 ih2 ⊢
    rw [tensorize_dirs, tensorize_dirs]
    by_cases hlt : a < b
    · rw [if_pos (hab.2 hlt), if_pos hlt, ih1]
      rfl
    · rw [if_neg (fun h => hlt (hab.1 h)), if_neg hlt, ih2]
      rfl
termination_by as bs => as.length + bs.length

theorem mem_tensorize_dirs : ∀ (as bs : List ℕ) (i x : ℕ), x ∈ (tensorize_dirs i as bs).1 → x ∈ as ∨ x ∈ bs
  | [], [], i, x, h => by simp [tensorize_dirs] at h
  | a :: as, [], i, x, h => by
    rw [tensorize_dirs] at h
    have ih := mem_tensorize_dirs as [] (i + 1) x
    simp only [List.mem_cons] at h ⊢
    tauto
  | [], b :: bs, i, x, h => by
    rw [tensorize_dirs] at h
    have ih := mem_tensorize_dirs [] bs (i + 1) x
    simp only [List.mem_cons] at h ⊢
    tauto
  | a :: as, b :: bs, i, x, h => by
    rw [tensorize_dirs] at h
    have ih1 := mem_tensorize_dirs as (b :: bs) (i + 1) x
    have ih2 := mem_tensorize_dirs (a :: as) bs (i + 1) x
    split at h
    · simp only [List.mem_cons] at h ih1 ⊢
      tauto
    · simp only [List.mem_cons] at h ih2 ⊢
      tauto
termination_by as bs => as.length + bs.length

theorem tensorize_pair_map {α : Type} [Mul α] [Zero α] (φ : ℕ → ℕ) (s : IndexSet) (A B : SpMat α) (dA dB : List ℕ)
    (h : ∀ a ∈ dA, ∀ b ∈ dB, (φ a < φ b ↔ a < b)) : tensorize_pair s A B (dA.map φ) (dB.map φ) = tensorize_pair s A B dA dB := by
  unfold tensorize_pair
  rw [tensorize_dirs_map φ dA dB 0 h]
  simp only [List.length_map]

theorem tensorizeLoop_map {α : Type} [Mul α] [Zero α] (φ : ℕ → ℕ) (s : IndexSet) : ∀ (Bs : List (SpMat α)) (A : SpMat α) (d : List ℕ)
    (ds : List (List ℕ)), (∀ a b, (a ∈ d ∨ ∃ e ∈ ds, a ∈ e) → (b ∈ d ∨ ∃ e ∈ ds, b ∈ e) → (φ a < φ b ↔ a < b)) →
    tensorizeLoop s A (d.map φ) Bs (ds.map (List.map φ)) = tensorizeLoop s A d Bs ds
  | [], A, d, ds, h => by simp [tensorizeLoop]
  | B :: Bs, A, d, [], h => by simp [tensorizeLoop]
  | B :: Bs, A, d, e :: ds, h => by
    have hde : ∀ a ∈ d, ∀ b ∈ e, (φ a < φ b ↔ a < b) := fun a ha b hb => h a b (Or.inl ha) (Or.inr ⟨e, by simp, hb⟩)
    simp only [List.map_cons, tensorizeLoop]
    rw [tensorize_pair_map φ s A B d e hde]
    congr 1
    funext r
    rw [tensorize_dirs_map φ d e 0 hde]
    refine tensorizeLoop_map φ s Bs r _ ds fun a b ha hb => h a b ?_ ?_
    · rcases ha with ha | ⟨x, hx, ha⟩
      · rcases mem_tensorize_dirs _ _ _ _ ha with ha | ha
        · exact Or.inl ha
        · exact Or.inr ⟨e, by simp, ha⟩
      · exact Or.inr ⟨x, by simp [hx], ha⟩
    · rcases hb with hb | ⟨x, hx, hb⟩
      · rcases mem_tensorize_dirs _ _ _ _ hb with hb | hb
        · exact Or.inl hb
        · exact Or.inr ⟨e, by simp, hb⟩
      · exact Or.inr ⟨x, by simp [hx], hb⟩

theorem tensorize_mats_dirs_map {α S T : Type} [Mul α] [Zero α] [Convert S (SpMat α)] [Convert (SpMat α) T] (φ : ℕ → ℕ) (s : IndexSet)
    (inputs : List S) (dirs : List (List ℕ)) (h : ∀ a ∈ dirs.flatten, ∀ b ∈ dirs.flatten, (φ a < φ b ↔ a < b)) :
    (tensorize_mats_dirs (α := α) s inputs (dirs.map (List.map φ)) : Out T) = tensorize_mats_dirs (α := α) s inputs dirs := by
  unfold tensorize_mats_dirs
  congr 1
  funext sp
  cases sp with
  | nil => rfl
  | cons A As =>
    cases dirs with
    | nil => rfl
    | cons d ds =>
      simp only [List.map_cons]
      rw [tensorizeLoop_map φ s As A d ds fun a b ha hb => h a (by simpa using ha) b (by simpa using hb)]

theorem idxOf_lt_idxOf {D : List ℕ} (hD : D.Pairwise (· < ·)) {a b : ℕ} (ha : a ∈ D) (hb : b ∈ D) : D.idxOf a < D.idxOf b ↔ a < b := by
  have hal := List.idxOf_lt_length_iff.2 ha
  have hbl := List.idxOf_lt_length_iff.2 hb
  have key : ∀ {x y : ℕ}, x ∈ D → y ∈ D → D.idxOf x < D.idxOf y → x < y := by
    intro x y hx hy hlt
    have := List.pairwise_iff_getElem.1 hD _ _ (List.idxOf_lt_length_iff.2 hx) (List.idxOf_lt_length_iff.2 hy) hlt
    rwa [List.getElem_idxOf, List.getElem_idxOf] at this
  refine ⟨key ha hb, fun h => ?_⟩
  rcases lt_trichotomy (D.idxOf a) (D.idxOf b) with h' | h' | h'
  · exact h'
  · have : a = b := by
      rw [← List.getElem_idxOf hal, ← List.getElem_idxOf hbl]
      congr 1
    omega
  · exact absurd (key hb ha h') (by omega)

/-! ## The rows of a matrix -/

theorem rowsOf_ok {M : Type} [MatOps M ℝ] [Meaning M ℝ] [LawfulMat M ℝ] {A : M} {n : ℕ} {f : ℕ → ℕ → ℝ} (hn : 1 ≤ n) (h : IsMat A n n f) :
    rowsOf A = .ok ((List.range n).map fun i => (List.range n).map fun j => f i j) := by
  rw [rowsOf, LawfulMat.size2 h hn, Out.ok_bind, LawfulMat.size1 h, mapM_ok (g := fun i => (List.range n).map fun j => f i j)]
  intro i hi
  rw [mapM_ok (g := fun j => f i j)]
  intro j hj
  exact LawfulMat.get h (List.mem_range.1 hi) (List.mem_range.1 hj)

theorem map_range_getD {β γ : Type} (l : List β) (d : β) (g : β → γ) : ((List.range l.length).map fun i => g (l.getD i d)) = l.map g := by
  apply List.ext_getElem
  · simp
  · intro i h1 h2
    have : i < l.length := by simpa using h2
    simp [this]

theorem rowsOf_list {M : Type} [MatOps M ℝ] [Meaning M ℝ] [LawfulMat M ℝ] {A : M} {L : List (List ℕ)} {f : ℕ → ℕ → ℝ} (hn : L ≠ [])
    (h : IsMat A L.length L.length f) {G : List ℕ → List ℕ → ℝ}
    (hG : ∀ i j, i < L.length → j < L.length → f i j = G (L.getD i []) (L.getD j [])) :
    rowsOf A = .ok (L.map fun I => L.map fun J => G I J) := by
  rw [rowsOf_ok (List.length_pos_iff.2 hn) (LawfulMat.congr h hG)]
  congr 1
  rw [← map_range_getD L [] (fun I => L.map fun J => G I J)]
  apply List.map_congr_left
  intro i _
  exact map_range_getD L [] (G (L.getD i []))

theorem isMat_list (L : List (List ℕ)) (G : List ℕ → List ℕ → ℝ) :
    IsMat (M := DMat ℝ) (L.map fun I => L.map fun J => G I J) L.length L.length fun i j => G (L.getD i []) (L.getD j []) := by
  refine ⟨by simp, ?_, ?_⟩
  · intro r hr
    obtain ⟨I, -, rfl⟩ := List.mem_map.1 hr
    simp
  · intro i j r x hr hx
    rw [List.getElem?_map, Option.map_eq_some_iff] at hr
    obtain ⟨I, hI, rfl⟩ := hr
    rw [List.getElem?_map, Option.map_eq_some_iff] at hx
    obtain ⟨J, hJ, rfl⟩ := hx
    simp [hI, hJ]

/-! ## The product of matrices -/

theorem core_tensorize_ok {ι : Type} {s : IndexSet} {degree : ℕ} {D : List ℕ} (hD : D.Pairwise (· < ·)) (hz : Sized s D.length degree)
    (hu : ∀ k, 1 ≤ k → k < D.length → Usable s k degree) {ms : List ι} {ds : ι → List ℕ}
    {mat : ι → List (List ℝ)} (hms : ∀ m ∈ ms, ds m ≠ [] ∧ (ds m).Pairwise (· < ·)) (hperm : (ms.map ds).flatten.Perm D)
    {Ls : ι → List (List ℕ)} (hLs : ∀ m ∈ ms, IterOk s (ds m).length degree (Ls m)) {G : ι → List ℕ → List ℕ → ℝ}
    (hmat : ∀ m ∈ ms, mat m = (Ls m).map fun I => (Ls m).map fun J => G m I J) {L : List (List ℕ)} (hL : IterOk s D.length degree L)
    (sparse : Bool) :
    core_tensorize sparse s (ms.map fun m => (ds m, mat m)) = .ok (L.map fun I => L.map fun J => (ms.map fun m => G m ((ds m).map (at' D I)) ((ds m).map (at' D J))).prod) := by
  let bs : List (DMat ℝ × MBlock ℝ) := ms.map fun m => (mat m, ⟨(ds m).map fun d => D.idxOf d, Ls m, fun i j => G m ((Ls m).getD i []) ((Ls m).getD j [])⟩)
  have hsub : ∀ m ∈ ms, ∀ d ∈ (ds m), d ∈ D := fun m hm d hd =>
    hperm.mem_iff.1 (List.mem_flatten.2 ⟨(ds m), List.mem_map.2 ⟨m, hm, rfl⟩, hd⟩)
  have hDn : D.Nodup := hD.imp (ne_of_lt ·)
  have hdirs : bs.map (·.2.dirs) = (ms.map ds).map (List.map fun d => D.idxOf d) := by simp [bs]
  have hmats : bs.map (·.1) = ms.map mat := by simp [bs]
  have hrel : ∀ a ∈ (ms.map ds).flatten, ∀ b ∈ (ms.map ds).flatten, (D.idxOf a < D.idxOf b ↔ a < b) :=
    fun a ha b hb => idxOf_lt_idxOf hD (hperm.mem_iff.1 ha) (hperm.mem_iff.1 hb)
  have hpart : Partition D.length (bs.map (·.2.dirs)) := by
    refine ⟨?_, ?_⟩
    · intro d hd
      rw [hdirs, List.mem_map] at hd
      obtain ⟨e, he, rfl⟩ := hd
      obtain ⟨m, hm, rfl⟩ := List.mem_map.1 he
      refine ⟨by simpa using (hms m hm).1, ?_⟩
      rw [List.pairwise_map]
      exact (hms m hm).2.imp_of_mem fun ha hb hab => (idxOf_lt_idxOf hD (hsub m hm _ ha) (hsub m hm _ hb)).2 hab
    · rw [hdirs, ← List.map_flatten]
      have := hperm.map fun d => D.idxOf d
      rwa [map_idxOf_self hDn] at this
  have hbs : ∀ b ∈ bs, s.s_list b.2.dirs.length degree = .ok b.2.list ∧ IsMat b.1 b.2.list.length b.2.list.length b.2.fn := by
    intro b hb
    obtain ⟨m, hm, rfl⟩ := List.mem_map.1 hb
    refine ⟨by simpa using (hLs m hm).list, ?_⟩
    simp only
    rw [hmat m hm]
    exact isMat_list _ _
  have hne : L ≠ [] := hL.runs.ne_nil
  have hent : ∀ i j, i < L.length → j < L.length → (bs.map fun b => b.2.entry (L.getD i []) (L.getD j [])).prod =
      (ms.map fun m => G m ((ds m).map (at' D (L.getD i []))) ((ds m).map (at' D (L.getD j [])))).prod := by
    intro i j hi hj
    congr 1
    simp only [bs, List.map_map]
    apply List.map_congr_left
    intro m hm
    have hin : ∀ k < L.length, (ds m).map (at' D (L.getD k [])) ∈ Ls m ∧
        restrict ((ds m).map fun d => D.idxOf d) (L.getD k []) = (ds m).map (at' D (L.getD k [])) := by
      intro k hk
      have hr : restrict ((ds m).map fun d => D.idxOf d) (L.getD k []) = (ds m).map (at' D (L.getD k [])) := by
        rw [restrict, List.map_map]
        rfl
      refine ⟨?_, hr⟩
      rw [← hr]
      have hmk : InSet s D.length degree (L.getD k []) := (hL.mem _).1 (by simp [hk])
      have hp := hpart.inc ((ds m).map fun d => D.idxOf d) (by rw [hdirs]; exact List.mem_map.2 ⟨(ds m), List.mem_map.2 ⟨m, hm, rfl⟩, rfl⟩)
      have hd' := dirs_of_increasing s (dim := D.length) hp.1 hp.2 (by
        intro k hk
        obtain ⟨d, hd, rfl⟩ := List.mem_map.1 hk
        exact List.idxOf_lt_length_iff.2 (hsub m hm d hd))
      have := inSet_restrict hd' hmk
      rw [List.length_map] at this
      exact ((hLs m hm).mem _).2 this
    obtain ⟨hi1, hi2⟩ := hin i hi
    obtain ⟨hj1, hj2⟩ := hin j hj
    simp only [Function.comp_apply, MBlock.entry, entry]
    rw [hi2, hj2, if_pos ⟨hi1, hj1⟩]
    rw [List.getD_eq_getElem?_getD (l := Ls m), getElem?_idxOf' hi1, List.getD_eq_getElem?_getD (l := Ls m), getElem?_idxOf' hj1]
    rfl
  unfold core_tensorize
  have hf : (ms.map fun m => (ds m, mat m)).map Prod.fst = ms.map ds := by simp
  have hs : (ms.map fun m => (ds m, mat m)).map Prod.snd = ms.map mat := by simp
  rw [hf, hs]
  cases sparse with
  | false =>
    obtain ⟨R, e, hR⟩ := tensorize_mats_ok (S := DMat ℝ) (T := DMat ℝ) hz hu hpart hbs hL
    rw [hdirs, hmats, tensorize_mats_dirs_map _ s _ _ hrel] at e
    rw [if_neg (by simp), e, Out.ok_bind, rowsOf_list hne hR
      (G := fun I J => (ms.map fun m => G m ((ds m).map (at' D I)) ((ds m).map (at' D J))).prod) hent]
  | true =>
    obtain ⟨R, e, hR⟩ := tensorize_mats_ok (S := DMat ℝ) (T := SpMat ℝ) hz hu hpart hbs hL
    rw [hdirs, hmats, tensorize_mats_dirs_map _ s _ _ hrel] at e
    rw [if_pos rfl, e, Out.ok_bind, rowsOf_list hne hR
      (G := fun I J => (ms.map fun m => G m ((ds m).map (at' D I)) ((ds m).map (at' D J))).prod) hent]

/-! ## The product of forms -/

theorem mkVarf_small {Φ : Type} {sparse : Bool} {M : List (List ℝ)} {p : Position} {factor : Φ} {s : IndexSet} {d : ℕ} {L : List IVec}
    (hu : Usable s p.dim d) (hL : IterOk s p.dim d L) (hlen : M.length = L.length) :
    mkVarf sparse M p factor s = .ok ⟨sparse, M, p, recDegree s d, factor, s⟩ := by
  have hg := get_degree_usable s hu
  rw [← hL.length, ← hlen] at hg
  obtain ⟨L', h1', h2', -, -⟩ := hu.toSized.open (recDegree_same s d)
  have : L' = L := h1'.unique hL
  subst this
  rw [mkVarf, hg, Out.ok_bind, h2'.list, Out.ok_bind, if_neg (by simp [hlen])]

theorem matsSet_new {k : List ℕ} {v : List (List ℝ)} : ∀ {m : List (List ℕ × List (List ℝ))}, k ∉ m.map Prod.fst → matsSet k v m = m ++ [(k, v)]
  | [], _ => rfl
  | e :: es, h => by
    simp only [List.map_cons, List.mem_cons, not_or] at h
    rw [matsSet, if_neg (fun h' => h.1 h'.symm), matsSet_new h.2]
    rfl

theorem matsSet_fold {ι : Type} (key : ι → List ℕ) (mat : ι → List (List ℝ)) : ∀ (xs : List ι) (m : List (List ℕ × List (List ℝ))),
    (m.map Prod.fst ++ xs.map key).Nodup → xs.foldl (fun m b => matsSet (key b) (mat b) m) m = m ++ xs.map fun x => (key x, mat x)
  | [], m, _ => by simp
  | x :: xs, m, h => by
    have hx : key x ∉ m.map Prod.fst := by
      rw [List.nodup_append'] at h
      exact fun h' => h.2.2 h' (by simp)
    rw [List.foldl_cons, matsSet_new hx, matsSet_fold key mat xs]
    · simp
    · simpa using h

variable {F : Type}

theorem mem_mulTerms {t u : Multiset (Product F)} {p : Product F} : p ∈ mulTerms t u ↔ ∃ a ∈ t, ∃ b ∈ u, a + b = p := by
  simp [mulTerms]

/-- The product of the factors of some forms. -/
def allTerms (As : List (HVarf (SFn F))) : Multiset (Product F) := As.foldl (fun t b => mulTerms t b.factor.terms) {0}

theorem vars_foldTerms {P : ℕ → Prop} : ∀ (As : List (HVarf (SFn F))) (t : Multiset (Product F)),
    (∀ A ∈ As, ∀ p ∈ A.factor.terms, ∀ x ∈ p.vars, P x) → (∀ p ∈ t, ∀ x ∈ p.vars, P x) →
    ∀ p ∈ As.foldl (fun t b => mulTerms t b.factor.terms) t, ∀ x ∈ p.vars, P x
  | [], t, _, ht => ht
  | A :: As, t, hA, ht => by
    refine vars_foldTerms As _ (fun B hB => hA B (by simp [hB])) ?_
    intro p hp x hx
    obtain ⟨a, ha, b, hb, rfl⟩ := mem_mulTerms.1 hp
    obtain ⟨f, hf, hxf⟩ := hx
    rcases Multiset.mem_add.1 hf with hf | hf
    · exact ht a ha x (⟨f, hf, hxf⟩)
    · exact hA A (by simp) b hb x (⟨f, hf, hxf⟩)

theorem flatten_disjoint {ι : Type} {xs : List ι} {f : ι → List ℕ} (h : (xs.map f).flatten.Nodup) {i j : ℕ} (hi : i < xs.length)
    (hj : j < xs.length) {d : ℕ} (h1 : d ∈ f xs[i]) (h2 : d ∈ f xs[j]) : i = j := by
  rw [List.nodup_flatten, List.pairwise_map] at h
  by_contra hne
  rcases Nat.lt_or_gt_of_ne hne with hlt | hlt
  · exact List.pairwise_iff_getElem.1 h.2 i j hi hj hlt h1 h2
  · exact List.pairwise_iff_getElem.1 h.2 j i hj hi hlt h2 h1

/-- Among positions with disjoint directions, a direction has one holder. -/
theorem holders_disjoint : ∀ {ps : List Position}, (ps.map Position.dirs).flatten.Nodup → ∀ {d : ℕ} {p : Position}, p ∈ ps → d ∈ p.dirs →
    holders ps d = [p]
  | q :: ps, h, d, p, hp, hd => by
    simp only [List.map_cons, List.flatten_cons] at h
    rw [List.nodup_append'] at h
    have hnone : ∀ x ∈ ps, d ∈ q.dirs → d ∉ x.dirs := fun x hx hq hxd =>
      h.2.2 hq (List.mem_flatten.2 ⟨x.dirs, List.mem_map.2 ⟨x, hx, rfl⟩, hxd⟩)
    rcases List.mem_cons.1 hp with rfl | hp
    · rw [holders, List.filter_cons_of_pos (by simpa using hd), List.filter_eq_nil_iff.2]
      intro x hx
      simpa using hnone x hx hd
    · have : d ∉ q.dirs := fun hq => hnone p hp hq hd
      rw [holders, List.filter_cons_of_neg (by simpa using this)]
      exact holders_disjoint h.2.1 hp hd

/-- The position of a product of positions with disjoint directions. -/
theorem pos_tensorize_disjoint {ps : List Position} (h2 : 2 ≤ ps.length) (hok : ∀ p ∈ ps, PosOk p) (hdiag : ∀ p ∈ ps, p.is_diag) {D : List ℕ}
    (hD : D.Pairwise (· < ·)) (hperm : (ps.map Position.dirs).flatten.Perm D) :
    ∃ P, pos_tensorize ps = .ok P ∧ PosOk P ∧ Diagonal P ∧ P.dirs = D ∧ ∀ d x, Has P d x ↔ ∃ p ∈ ps, Has p d x := by
  have hn : (ps.map Position.dirs).flatten.Nodup := hperm.nodup_iff.2 (hD.imp (ne_of_lt ·))
  have hone : ∀ d, holders ps d = [] ∨ ∃ p ∈ ps, d ∈ p.dirs ∧ holders ps d = [p] := by
    intro d
    by_cases h : ∃ p ∈ ps, d ∈ p.dirs
    · obtain ⟨p, hp, hd⟩ := h
      exact Or.inr ⟨p, hp, hd, holders_disjoint hn hp hd⟩
    · push Not at h
      left
      rw [holders, List.filter_eq_nil_iff]
      intro p hp
      simpa using h p hp
  obtain ⟨P, e, ok, hdirs, hhas, htail⟩ := Props.C52_tensorize_partial ps (by rw [← List.length_pos_iff]; omega) hok hdiag (by
      intro d
      rcases hone d with h | ⟨p, -, -, h⟩ <;> simp [h]) (by
      intro d p q h
      rcases hone d with h' | ⟨p, -, -, h'⟩ <;> simp [h'] at h)
  obtain ⟨hs, hdg⟩ := htail h2
  refine ⟨P, e, ok, hdg, ?_, ?_⟩
  · refine List.Perm.eq_of_pairwise (le := (· < ·)) (fun a b _ _ h1 h2 => absurd h1 (by omega)) hs hD ?_
    rw [List.perm_ext_iff_of_nodup (hs.imp (ne_of_lt ·)) (hD.imp (ne_of_lt ·))]
    intro d
    rw [hdirs, ← hperm.mem_iff]
    constructor
    · intro h
      rcases hone d with h' | ⟨p, hp, hd, -⟩
      · simp [h'] at h
      · exact List.mem_flatten.2 ⟨p.dirs, List.mem_map.2 ⟨p, hp, rfl⟩, hd⟩
    · intro h
      obtain ⟨l, hl, hd⟩ := List.mem_flatten.1 h
      obtain ⟨p, hp, rfl⟩ := List.mem_map.1 hl
      simp [holders_disjoint hn hp hd]
  · intro d x
    rw [hhas]
    constructor
    · rintro ⟨p, h, hx⟩
      have : p ∈ holders ps d := by simp [h]
      exact ⟨p, (List.mem_filter.1 this).1, hx⟩
    · rintro ⟨p, hp, hx⟩
      exact ⟨p, holders_disjoint hn hp hx.mem, hx⟩

/-- The product of forms with disjoint directions, whose entries are given by `G`. -/
theorem varf_tensorize_ok {ι : Type} {xs : List ι} {A : ι → HVarf (SFn F)} (h2 : 2 ≤ xs.length) {s : IndexSet} {degree d0 : ℕ}
    (hset : ∀ x ∈ xs, (A x).index_set = s) (hdeg : ∀ x ∈ xs, (A x).degree = d0) (hpos : ∀ x ∈ xs, PosOk (A x).position)
    (hdiag : ∀ x ∈ xs, (A x).position.is_diag) (hsort : ∀ x ∈ xs, (A x).position.dirs.Pairwise (· < ·))
    (hne : ∀ x ∈ xs, (A x).position.dirs ≠ []) {D : List ℕ} (hD : D.Pairwise (· < ·))
    (hperm : (xs.map fun x => (A x).position.dirs).flatten.Perm D) (hz : Sized s D.length degree)
    (hu : ∀ k, 1 ≤ k → k < D.length → Usable s k degree) {Ls : ι → List (List ℕ)}
    (hLs : ∀ x ∈ xs, IterOk s (A x).position.dim degree (Ls x)) {G : ι → List ℕ → List ℕ → ℝ}
    (hmat : ∀ x ∈ xs, (A x).matrix = (Ls x).map fun I => (Ls x).map fun J => G x I J)
    (hvars : ∀ x ∈ xs, ∀ p ∈ (A x).factor.terms, ∀ v ∈ p.vars, v ∈ (A x).position.dirs) {L : List (List ℕ)} (hL : IterOk s D.length degree L)
    (sparse : Bool) :
    ∃ P, pos_tensorize (xs.map fun x => (A x).position) = .ok P ∧ PosOk P ∧ Diagonal P ∧ P.dirs = D ∧
      (∀ d x, Has P d x ↔ ∃ y ∈ xs, Has (A y).position d x) ∧
      varf_tensorize sparse (xs.map A) = mkVarf sparse
        (L.map fun I => L.map fun J => (xs.map fun x => G x ((A x).position.dirs.map (at' D I)) ((A x).position.dirs.map (at' D J))).prod)
        P ⟨D, allTerms (xs.map A)⟩ s := by
  have hps : ∀ p ∈ xs.map fun x => (A x).position, ∃ x ∈ xs, (A x).position = p := fun p hp => List.mem_map.1 hp
  obtain ⟨P, eP, okP, dgP, dirsP, hasP⟩ := pos_tensorize_disjoint (ps := xs.map fun x => (A x).position) (by simpa using h2)
    (by intro p hp; obtain ⟨x, hx, rfl⟩ := hps p hp; exact hpos x hx) (by intro p hp; obtain ⟨x, hx, rfl⟩ := hps p hp; exact hdiag x hx) hD
    (by simpa [Function.comp_def] using hperm)
  refine ⟨P, eP, okP, dgP, dirsP, ?_, ?_⟩
  · intro d x
    rw [hasP]
    simp
  have hnd : (xs.map fun x => (A x).position.dirs).Nodup := by
    have hn : (xs.map fun x => (A x).position.dirs).flatten.Nodup := hperm.nodup_iff.2 (hD.imp (ne_of_lt ·))
    rw [List.nodup_iff_pairwise_ne, List.pairwise_map]
    rw [List.nodup_flatten, List.pairwise_map] at hn
    refine hn.2.imp_of_mem ?_
    intro a b ha hb hab heq
    obtain ⟨y, hy⟩ := List.exists_mem_of_ne_nil _ (hne a ha)
    exact hab hy (heq ▸ hy)
  have hkey : ∀ x ∈ xs, (A x).position.dirs.toFinset.sort (· ≤ ·) = (A x).position.dirs := fun x hx => sort_toFinset (hsort x hx)
  have hmats : (xs.map A).foldl (fun m b => matsSet (b.position.dirs.toFinset.sort (· ≤ ·)) b.matrix m) [] =
      xs.map fun x => ((A x).position.dirs, (A x).matrix) := by
    rw [matsSet_fold (fun b : HVarf (SFn F) => b.position.dirs.toFinset.sort (· ≤ ·)) HVarf.matrix]
    · rw [List.nil_append, List.map_map]
      apply List.map_congr_left
      intro x hx
      simp only [Function.comp_apply, hkey x hx]
    · rw [List.map_nil, List.nil_append, List.map_map]
      rwa [List.map_congr_left (g := fun x => (A x).position.dirs)]
      intro x hx
      simp only [Function.comp_apply, hkey x hx]
  have hcore := core_tensorize_ok hD hz hu (ms := xs) (ds := fun x => (A x).position.dirs) (mat := fun x => (A x).matrix)
    (fun x hx => ⟨hne x hx, hsort x hx⟩) hperm (Ls := Ls) (fun x hx => by rw [(hpos x hx).dirs]; exact hLs x hx) hmat hL sparse
  obtain ⟨x, y, zs, rfl⟩ : ∃ x y zs, xs = x :: y :: zs := by
    match xs, h2 with
    | x :: y :: zs, _ => exact ⟨x, y, zs, rfl⟩
  · rw [List.map_cons, List.map_cons, varf_tensorize, if_neg]
    · rw [← List.map_cons (f := A), ← List.map_cons (f := A), hmats, hset x (by simp)]
      dsimp only
      rw [hcore, Out.ok_bind, List.map_map]
      rw [show pos_tensorize (List.map (HVarf.position ∘ A) (x :: y :: zs)) = .ok P from eP, Out.ok_bind, if_neg, dirsP]
      · rfl
      · rintro (h | ⟨p, hp, v, hv, hvn⟩)
        · exact h (by rw [dirsP]; exact hD.imp le_of_lt)
        · refine hvn ?_
          refine vars_foldTerms (P := fun v => v ∈ P.dirs) _ {0} ?_ ?_ p hp v hv
          · intro B hB p hp v hv
            obtain ⟨z, hz, rfl⟩ := List.mem_map.1 hB
            rw [dirsP, ← hperm.mem_iff]
            exact List.mem_flatten.2 ⟨_, List.mem_map.2 ⟨z, hz, rfl⟩, hvars z hz p hp v hv⟩
          · intro p hp v hv
            rw [Multiset.mem_singleton] at hp
            subst hp
            obtain ⟨f, hf, -⟩ := hv
            simp at hf
    · rintro ⟨b, hb, hbb⟩
      rw [← List.map_cons, ← List.map_cons] at hb
      obtain ⟨z, hz, rfl⟩ := List.mem_map.1 hb
      rw [hset z hz, hset x (by simp), hdeg z hz, hdeg x (by simp)] at hbb
      simp at hbb
    · simp

end Hermipy
