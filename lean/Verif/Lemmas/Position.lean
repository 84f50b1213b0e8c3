import Verif.Spec.Position
import Verif.Lemmas.Converters

namespace Hermipy
open Spec

theorem mapM_throws {β γ : Type} {f : β → Out γ} : ∀ {l : List β}, (∀ x ∈ l, (∃ y, f x = .ok y) ∨ f x = .throws) →
    (∃ x ∈ l, f x = .throws) → l.mapM f = .throws
  | [], _, ⟨x, hx, _⟩ => by simp at hx
  | a :: l, h, ⟨x, hx, e⟩ => by
    rw [List.mapM_cons]
    rcases h a (by simp) with ⟨y, hy⟩ | hy
    · rw [hy, Out.ok_bind]
      have : x ∈ l := by
        rcases List.mem_cons.1 hx with rfl | hx
        · rw [hy] at e; cases e
        · exact hx
      rw [mapM_throws (fun z hz => h z (by simp [hz])) ⟨x, this, e⟩]
      rfl
    · rw [hy]; rfl

theorem pyget_some {α : Type} {v : List α} {i : ℕ} {a : α} (h : v[i]? = some a) : pyget v i = .ok a := by
  simp [pyget, h]

theorem Spec.Has.mem {p : Position} {d x} (h : Has p d x) : d ∈ p.dirs := by
  obtain ⟨i, r, h, -⟩ := h
  exact List.mem_of_getElem? h

theorem Spec.Has.unique {p : Position} (hp : PosOk p) {d x y} (hx : Has p d x) (hy : Has p d y) : x = y := by
  obtain ⟨i, r, h1, h2, h3, h4, h5⟩ := hx
  obtain ⟨j, s, g1, g2, g3, g4, g5⟩ := hy
  have hi : i = j := by
    obtain ⟨h, e⟩ := List.getElem?_eq_some_iff.1 h1
    obtain ⟨h', e'⟩ := List.getElem?_eq_some_iff.1 g1
    exact (hp.nodup.getElem_inj_iff).1 (e.trans e'.symm)
  subst hi
  rw [h3] at g3
  cases g3
  rw [h2] at g2; rw [h4] at g4; rw [h5] at g5
  obtain ⟨a, b, c⟩ := x
  obtain ⟨a', b', c'⟩ := y
  simp_all

theorem exists_has {p : Position} (hp : PosOk p) {d} (h : d ∈ p.dirs) : ∃ x, Has p d x := by
  obtain ⟨i, hi, rfl⟩ := List.getElem_of_mem h
  rw [hp.dirs] at hi
  have h1 : i < p.mean.length := by rw [hp.mean]; exact hi
  have h2 : i < p.cov.length := by rw [hp.cov]; exact hi
  have h3 : i < (p.cov[i]).length := by rw [hp.rows _ (List.getElem_mem h2)]; exact hi
  have h4 : i < p.types.length := by rw [hp.types]; exact hi
  exact ⟨(p.mean[i], p.cov[i][i], p.types[i]), i, p.cov[i], by simp, by simp, by simp, by simp, by simp⟩

theorem mem_iff_has {p : Position} (hp : PosOk p) {d} : d ∈ p.dirs ↔ ∃ x, Has p d x :=
  ⟨exists_has hp, fun ⟨_, h⟩ => h.mem⟩

theorem idxOf_has {p : Position} (hp : PosOk p) {d x} (h : Has p d x) : ∃ r, p.mean[p.dirs.idxOf d]? = some x.1 ∧
    p.cov[p.dirs.idxOf d]? = some r ∧ r[p.dirs.idxOf d]? = some x.2.1 ∧ p.types[p.dirs.idxOf d]? = some x.2.2 := by
  obtain ⟨i, r, h1, h2, h3, h4, h5⟩ := h
  have : p.dirs.idxOf d = i := by
    obtain ⟨h, e⟩ := List.getElem?_eq_some_iff.1 h1
    rw [← e]
    exact hp.nodup.idxOf_getElem i h
  rw [this]
  exact ⟨r, h2, h3, h4, h5⟩

theorem readDir_has {p : Position} (hp : PosOk p) {d x} (h : Has p d x) : readDir p d = .ok x := by
  obtain ⟨r, h2, h3, h4, h5⟩ := idxOf_has hp h
  rw [readDir, pyindex, if_pos h.mem, Out.ok_bind, pyget_some h2, Out.ok_bind, pyget_some h3, Out.ok_bind, pyget_some h4,
    Out.ok_bind, pyget_some h5, Out.ok_bind]

theorem readDir_missing {p : Position} {d} (h : d ∉ p.dirs) : readDir p d = .throws := by
  rw [readDir, pyindex, if_neg h]; rfl

/-- The position put together by `tensorize` and `project`. -/
def assemble (dirs : List ℕ) (rs : List (ℝ × ℝ × String)) : Position :=
  ⟨rs.length, dirs, rs.map fun r => r.1, diagMat (rs.map fun r => r.2.1), rs.map fun r => r.2.2⟩

theorem diagMat_length (v : List ℝ) : (diagMat v).length = v.length := by simp [diagMat]

theorem diagMat_row (v : List ℝ) : ∀ r ∈ diagMat v, r.length = v.length := by
  intro r hr
  obtain ⟨i, -, rfl⟩ := List.mem_map.1 hr
  simp

theorem diagMat_get {v : List ℝ} {i j : ℕ} {r : List ℝ} {c : ℝ} (h : (diagMat v)[i]? = some r) (h' : r[j]? = some c) :
    c = if i = j then v.getD i 0 else 0 := by
  obtain ⟨hi, e⟩ := List.getElem?_eq_some_iff.1 h
  subst e
  obtain ⟨hj, e⟩ := List.getElem?_eq_some_iff.1 h'
  subst e
  simp [diagMat]

theorem mk_tensor {dirs : List ℕ} {rs : List (ℝ × ℝ × String)} (h : rs.length = dirs.length) :
    mkPosition none (some (rs.map fun r => r.1)) (some (diagMat (rs.map fun r => r.2.1))) (some dirs) (some (rs.map fun r => r.2.2)) =
      .ok (assemble dirs rs) := by
  have hr := diagMat_row (rs.map fun r => r.2.1)
  rw [List.length_map] at hr
  simp only [mkPosition, Out.ok_bind]
  rw [if_neg (by simp [diagMat_length, h])]
  simp only [Option.getD_some, List.length_map]
  rw [if_pos hr]
  rfl

theorem mk_project {dirs : List ℕ} {rs : List (ℝ × ℝ × String)} (h : rs.length = dirs.length) :
    mkPosition (some dirs.length) (some (rs.map fun r => r.1)) (some (diagMat (rs.map fun r => r.2.1))) (some dirs)
      (some (rs.map fun r => r.2.2)) = .ok (assemble dirs rs) := by
  have hr := diagMat_row (rs.map fun r => r.2.1)
  rw [List.length_map] at hr
  simp only [mkPosition, Out.ok_bind]
  rw [if_neg (by simp [diagMat_length, h])]
  simp only [Option.getD_some, List.length_map]
  rw [if_pos hr]
  rfl

theorem assemble_ok {dirs : List ℕ} {rs : List (ℝ × ℝ × String)} (h : rs.length = dirs.length) (hn : dirs.Nodup) :
    PosOk (assemble dirs rs) where
  dirs := h.symm
  mean := by simp [assemble]
  cov := by simp [assemble, diagMat_length]
  rows := by
    intro r hr
    have := diagMat_row _ r hr
    rw [List.length_map] at this
    exact this
  types := by simp [assemble]
  nodup := hn

theorem assemble_diagonal (dirs : List ℕ) (rs : List (ℝ × ℝ × String)) : Diagonal (assemble dirs rs) := by
  intro i j r c hij h h'
  rw [diagMat_get h h', if_neg hij]

theorem assemble_has {dirs : List ℕ} (g : ℕ → ℝ × ℝ × String) {d x} : Has (assemble dirs (dirs.map g)) d x ↔ d ∈ dirs ∧ x = g d := by
  constructor
  · rintro ⟨i, r, h1, h2, h3, h4, h5⟩
    have hc := diagMat_get h3 h4
    refine ⟨List.mem_of_getElem? h1, ?_⟩
    replace h1 : dirs[i]? = some d := h1
    simp only [assemble, List.map_map, List.getElem?_map, h1, Option.map_some, Function.comp] at h2 h5
    simp only [List.map_map, List.getD_eq_getElem?_getD, List.getElem?_map, h1, Option.map_some, Function.comp, if_true,
      Option.getD_some] at hc
    obtain ⟨a, b, c⟩ := x
    simp only [Option.some.injEq] at h2 h5 hc
    rw [← h2, ← h5, hc]
  · rintro ⟨h, rfl⟩
    obtain ⟨i, hi, rfl⟩ := List.getElem_of_mem h
    refine ⟨i, (List.range dirs.length).map fun j => if i = j then (g dirs[i]).2.1 else 0, by simp [assemble], by simp [assemble, List.getElem?_eq_getElem hi], ?_, by simp [hi], by simp [assemble, List.getElem?_eq_getElem hi]⟩
    simp [assemble, diagMat, hi]

theorem mapM_readDir {p : ℕ → Position} {dirs : List ℕ} (hp : ∀ d ∈ dirs, PosOk (p d)) (h : ∀ d ∈ dirs, d ∈ (p d).dirs) :
    ∃ g, (∀ d ∈ dirs, Has (p d) d (g d)) ∧ dirs.mapM (fun d => readDir (p d) d) = .ok (dirs.map g) := by
  classical
  have : ∀ d, ∃ x, d ∈ dirs → Has (p d) d x := by
    intro d
    by_cases hd : d ∈ dirs
    · obtain ⟨x, hx⟩ := exists_has (hp d hd) (h d hd)
      exact ⟨x, fun _ => hx⟩
    · exact ⟨(0, 0, ""), fun h => absurd h hd⟩
  choose g hg using this
  exact ⟨g, hg, mapM_ok fun d hd => readDir_has (hp d hd) (hg d hd)⟩

/-- A position is determined by what it says about its directions. -/
theorem position_ext {p q : Position} (hp : PosOk p) (hq : PosOk q) (dp : Diagonal p) (dq : Diagonal q) (hd : p.dirs = q.dirs)
    (h : ∀ d x, Has p d x → Has q d x) : p = q := by
  have hdim : p.dim = q.dim := by rw [← hp.dirs, ← hq.dirs, hd]
  have key : ∀ i, i < p.dim → p.mean[i]? = q.mean[i]? ∧ p.types[i]? = q.types[i]? ∧
      ∃ r s, p.cov[i]? = some r ∧ q.cov[i]? = some s ∧ r[i]? = s[i]? := by
    intro i hi
    have h1 : i < p.dirs.length := by rw [hp.dirs]; exact hi
    obtain ⟨x, hx⟩ := exists_has hp (List.getElem_mem h1)
    obtain ⟨r, a1, a2, a3, a4⟩ := idxOf_has hp hx
    obtain ⟨s, b1, b2, b3, b4⟩ := idxOf_has hq (h _ _ hx)
    rw [hp.nodup.idxOf_getElem] at a1 a2 a3 a4
    rw [← hd, hp.nodup.idxOf_getElem] at b1 b2 b3 b4
    exact ⟨a1.trans b1.symm, a4.trans b4.symm, r, s, a2, b2, a3.trans b3.symm⟩
  have hmean : p.mean = q.mean := by
    refine List.ext_getElem? fun i => ?_
    by_cases hi : i < p.dim
    · exact (key i hi).1
    · rw [List.getElem?_eq_none (by rw [hp.mean]; omega), List.getElem?_eq_none (by rw [hq.mean]; omega)]
  have htypes : p.types = q.types := by
    refine List.ext_getElem? fun i => ?_
    by_cases hi : i < p.dim
    · exact (key i hi).2.1
    · rw [List.getElem?_eq_none (by rw [hp.types]; omega), List.getElem?_eq_none (by rw [hq.types]; omega)]
  have hcov : p.cov = q.cov := by
    refine List.ext_getElem? fun i => ?_
    by_cases hi : i < p.dim
    · obtain ⟨-, -, r, s, a2, b2, e⟩ := key i hi
      rw [a2, b2]
      congr 1
      have lr := hp.rows r (List.mem_of_getElem? a2)
      have ls := hq.rows s (List.mem_of_getElem? b2)
      refine List.ext_getElem? fun j => ?_
      by_cases hij : i = j
      · rw [← hij]; exact e
      · by_cases hj : j < p.dim
        · have e1 : r[j]? = some r[j] := List.getElem?_eq_getElem (by omega)
          have e2 : s[j]? = some s[j] := List.getElem?_eq_getElem (by omega)
          rw [e1, e2, dp i j r _ hij a2 e1, dq i j s _ hij b2 e2]
        · rw [List.getElem?_eq_none (by omega), List.getElem?_eq_none (by omega)]
    · rw [List.getElem?_eq_none (by rw [hp.cov]; omega), List.getElem?_eq_none (by rw [hq.cov]; omega)]
  cases p; cases q
  simp only at hdim hd hmean hcov htypes
  subst hdim hd hmean hcov htypes
  rfl

theorem entryOf_diagonal {p : Position} (h : Diagonal p) {i j : ℕ} (hij : i ≠ j) : entryOf p.cov i j = 0 := by
  rw [entryOf, List.getD_eq_getElem?_getD, List.getD_eq_getElem?_getD]
  cases hr : p.cov[i]? with
  | none => simp
  | some r =>
    cases hc : r[j]? with
    | none => simp [hc]
    | some c => simp [hc, h i j r c hij hr hc]

theorem Spec.Diagonal.is_diag {p : Position} (h : Diagonal p) : p.is_diag := by
  rintro ⟨-, hn⟩
  have : (Matrix.of fun i j : Fin p.dim => if i = j then 0 else entryOf p.cov i j) = (0 : Matrix _ _ ℝ) := by
    ext i j
    by_cases hij : i = j
    · simp [hij]
    · simp [hij, entryOf_diagonal h (fun e => hij (Fin.ext e))]
  rw [offDiagNorm, this, map_zero, norm_zero] at hn
  norm_num at hn

theorem checkRemoved_ok {p1 p2 : Position} (h1 : PosOk p1) (h2 : PosOk p2) : ∀ ds : List ℕ, (∀ d ∈ ds, d ∈ p1.dirs ∧ d ∈ p2.dirs) →
    ((∀ d ∈ ds, Agree p1 p2 d) → checkRemoved p1 p2 ds = .ok ()) ∧ ((∃ d ∈ ds, ¬ Agree p1 p2 d) → checkRemoved p1 p2 ds = .throws)
  | [], _ => ⟨fun _ => rfl, fun ⟨d, hd, _⟩ => by simp at hd⟩
  | d :: ds, h => by
    obtain ⟨x, hx⟩ := exists_has h1 (h d (by simp)).1
    obtain ⟨y, hy⟩ := exists_has h2 (h d (by simp)).2
    obtain ⟨r, a1, a2, a3, a4⟩ := idxOf_has h1 hx
    obtain ⟨s, b1, b2, b3, b4⟩ := idxOf_has h2 hy
    obtain ⟨i1, i2⟩ := checkRemoved_ok h1 h2 ds fun e he => h e (by simp [he])
    have hag : Agree p1 p2 d ↔ x.1 = y.1 ∧ x.2.1 = y.2.1 := by
      refine ⟨fun h => h x y hx hy, fun h x' y' hx' hy' => ?_⟩
      rw [hx'.unique h1 hx, hy'.unique h2 hy]
      exact h
    rw [checkRemoved, pyindex, if_pos hx.mem, Out.ok_bind, pyindex, if_pos hy.mem, Out.ok_bind, pyget_some a1, Out.ok_bind,
      pyget_some b1, Out.ok_bind, pyget_some a2, Out.ok_bind, pyget_some a3, Out.ok_bind, pyget_some b2, Out.ok_bind, pyget_some b3,
      Out.ok_bind]
    by_cases hd : x.1 = y.1 ∧ x.2.1 = y.2.1
    · rw [if_neg (by tauto)]
      refine ⟨fun h => i1 fun e he => h e (by simp [he]), ?_⟩
      rintro ⟨e, he, hne⟩
      refine i2 ⟨e, ?_, hne⟩
      rcases List.mem_cons.1 he with rfl | he
      · exact absurd (hag.2 hd) hne
      · exact he
    · rw [if_pos (by tauto)]
      exact ⟨fun h => absurd (hag.1 (h d (by simp))) hd, fun _ => rfl⟩

/-- What `_tensorize` does. -/
theorem tensorize2_spec {p1 p2 : Position} (h1 : PosOk p1) (h2 : PosOk p2) :
    ((∀ d, d ∈ p1.dirs → d ∈ p2.dirs → Agree p1 p2 d) → ∃ r, tensorize2 p1 p2 = .ok r ∧ PosOk r ∧ Diagonal r ∧
      r.dirs.Pairwise (· < ·) ∧ ∀ d x, Has r d x ↔ (Has p1 d x ∧ d ∉ p2.dirs) ∨ (Has p2 d x ∧ d ∉ p1.dirs)) ∧
    ((∃ d, d ∈ p1.dirs ∧ d ∈ p2.dirs ∧ ¬ Agree p1 p2 d) → tensorize2 p1 p2 = .throws) := by
  obtain ⟨c1, c2⟩ := checkRemoved_ok h1 h2 (p1.dirs.filter fun d => d ∈ p2.dirs) (by simp)
  constructor
  · intro h
    set ds := ((p1.dirs.filter fun d => d ∉ p2.dirs) ++ (p2.dirs.filter fun d => d ∉ p1.dirs)).insertionSort (· ≤ ·) with hds
    have hmem : ∀ d, d ∈ ds ↔ (d ∈ p1.dirs ∧ d ∉ p2.dirs) ∨ (d ∈ p2.dirs ∧ d ∉ p1.dirs) := by
      intro d
      rw [hds, List.mem_insertionSort]
      simp
    have hnd : ds.Nodup := by
      rw [hds, (List.perm_insertionSort _ _).nodup_iff, List.nodup_append]
      refine ⟨h1.nodup.filter _, h2.nodup.filter _, ?_⟩
      intro a ha b hb e
      subst e
      simp only [List.mem_filter, decide_eq_true_eq] at ha hb
      exact ha.2 hb.1
    have hso : ds.Pairwise (· ≤ ·) := List.pairwise_insertionSort _ _
    obtain ⟨g, hg, hm⟩ := mapM_readDir (p := fun d => if d ∈ p1.dirs then p1 else p2) (dirs := ds)
      (by intro d hd; split <;> assumption)
      (by
        intro d hd
        split
        · assumption
        · rcases (hmem d).1 hd with h | h
          · exact absurd h.1 (by assumption)
          · exact h.1)
    refine ⟨assemble ds (ds.map g), ?_, assemble_ok (by simp) hnd, assemble_diagonal _ _, ?_, ?_⟩
    · rw [tensorize2]
      rw [c1 (by
        intro d hd
        simp only [List.mem_filter, decide_eq_true_eq] at hd
        exact h d hd.1 hd.2), Out.ok_bind, ← hds, hm, Out.ok_bind]
      exact mk_tensor (by simp)
    · exact (hso.and hnd).imp fun {a b} h => lt_of_le_of_ne h.1 h.2
    · intro d x
      rw [assemble_has, hmem]
      constructor
      · rintro ⟨h | h, rfl⟩
        · have := hg d ((hmem d).2 (.inl h))
          rw [if_pos h.1] at this
          exact .inl ⟨this, h.2⟩
        · have := hg d ((hmem d).2 (.inr h))
          rw [if_neg h.2] at this
          exact .inr ⟨this, h.2⟩
      · rintro (⟨hx, hn⟩ | ⟨hx, hn⟩)
        · have := hg d ((hmem d).2 (.inl ⟨hx.mem, hn⟩))
          rw [if_pos hx.mem] at this
          exact ⟨.inl ⟨hx.mem, hn⟩, hx.unique h1 this⟩
        · have := hg d ((hmem d).2 (.inr ⟨hx.mem, hn⟩))
          rw [if_neg hn] at this
          exact ⟨.inr ⟨hx.mem, hn⟩, hx.unique h2 this⟩
  · rintro ⟨d, hd1, hd2, hne⟩
    rw [tensorize2]
    rw [c2 ⟨d, by simp [hd1, hd2], hne⟩]
    rfl

theorem holders_append (l l' : List Position) (d : ℕ) : holders (l ++ l') d = holders l d ++ holders l' d := by
  simp [holders]

theorem holders_single (a : Position) (d : ℕ) : holders [a] d = if d ∈ a.dirs then [a] else [] := by
  by_cases h : d ∈ a.dirs <;> simp [holders, h]

theorem mem_holders {l : List Position} {a d} : a ∈ holders l d ↔ a ∈ l ∧ d ∈ a.dirs := by simp [holders]

/-- The state after the positions `pre` have been multiplied. -/
structure TensorInv (pre : List Position) (r : Position) : Prop where
  ok : PosOk r
  has : ∀ d x, Has r d x ↔ ∃ p, holders pre d = [p] ∧ Has p d x
  agrees : Agrees pre
  tail : 2 ≤ pre.length → r.dirs.Pairwise (· < ·) ∧ Diagonal r

theorem tensorFold (rest : List Position) : ∀ (pre : List Position) (r : Position), (∀ a ∈ pre ++ rest, PosOk a) → pre ≠ [] →
    (∀ d, (holders (pre ++ rest) d).length ≤ 2) → TensorInv pre r →
    (∃ r', rest.foldlM tensorize2 r = .ok r' ∧ TensorInv (pre ++ rest) r') ∨
      (rest.foldlM tensorize2 r = .throws ∧ ¬ Agrees (pre ++ rest)) := by
  induction rest with
  | nil =>
    intro pre r _ _ _ hi
    exact .inl ⟨r, rfl, by simpa using hi⟩
  | cons a rest ih =>
    intro pre r hok hne hlen hi
    have ha : PosOk a := hok a (by simp)
    have e : pre ++ a :: rest = pre ++ [a] ++ rest := by simp
    have hmemr : ∀ d, d ∈ r.dirs ↔ ∃ p, holders pre d = [p] := by
      intro d
      rw [mem_iff_has hi.ok]
      constructor
      · rintro ⟨x, hx⟩
        obtain ⟨p, hp, -⟩ := (hi.has d x).1 hx
        exact ⟨p, hp⟩
      · rintro ⟨p, hp⟩
        have : p ∈ holders pre d := by rw [hp]; simp
        rw [mem_holders] at this
        obtain ⟨x, hx⟩ := exists_has (hok p (by simp [this.1])) this.2
        exact ⟨x, (hi.has d x).2 ⟨p, hp, hx⟩⟩
    have hl : ∀ d, d ∈ a.dirs → (holders pre d).length ≤ 1 := by
      intro d hd
      have := hlen d
      rw [e, holders_append, holders_append, holders_single, if_pos hd] at this
      simp at this
      omega
    have hagree : ∀ d p, d ∈ a.dirs → holders pre d = [p] → (Agree r a d ↔ Agree p a d) := by
      intro d p hd hp
      have : ∀ x, Has r d x ↔ Has p d x := by
        intro x
        rw [hi.has]
        constructor
        · rintro ⟨p', h, hx⟩
          rw [hp] at h
          cases h
          exact hx
        · exact fun hx => ⟨p, hp, hx⟩
      simp [Agree, this]
    rw [List.foldlM_cons]
    by_cases hmis : ∃ d, d ∈ r.dirs ∧ d ∈ a.dirs ∧ ¬ Agree r a d
    · right
      rw [(tensorize2_spec hi.ok ha).2 hmis]
      refine ⟨rfl, fun hag => ?_⟩
      obtain ⟨d, hd1, hd2, hn⟩ := hmis
      obtain ⟨p, hp⟩ := (hmemr d).1 hd1
      refine hn ((hagree d p hd2 hp).2 (hag d p a ?_))
      have := hlen d
      rw [e, holders_append, holders_append, holders_single, if_pos hd2, hp] at this ⊢
      simp at this ⊢
      exact this
    · obtain ⟨r', e', ok', diag', sort', has'⟩ := (tensorize2_spec hi.ok ha).1 (by
        intro d h1 h2
        by_contra hn
        exact hmis ⟨d, h1, h2, hn⟩)
      rw [e', Out.ok_bind, e]
      refine ih (pre ++ [a]) r' (by rw [← e]; exact hok) (by simp) (by rw [← e]; exact hlen) ⟨ok', ?_, ?_, fun _ => ⟨sort', diag'⟩⟩
      · intro d x
        rw [has', holders_append, holders_single]
        by_cases hd : d ∈ a.dirs
        · rw [if_pos hd]
          have hr : d ∉ r.dirs ↔ holders pre d = [] := by
            rw [hmemr]
            have := hl d hd
            match h : holders pre d with
            | [] => simp
            | [p] => simp
            | p :: q :: l => rw [h] at this; simp at this
          rw [hr]
          constructor
          · rintro (⟨-, h⟩ | ⟨hx, h⟩)
            · exact absurd hd h
            · exact ⟨a, by rw [h]; rfl, hx⟩
          · rintro ⟨p, hp, hx⟩
            right
            match h : holders pre d with
            | [] => rw [h] at hp; simp at hp; rw [hp]; exact ⟨hx, rfl⟩
            | q :: l => rw [h] at hp; simp at hp
        · rw [if_neg hd, List.append_nil, ← hi.has]
          constructor
          · rintro (h | h)
            · exact h.1
            · exact absurd h.1.mem hd
          · exact fun h => .inl ⟨h, hd⟩
      · intro d p q hpq
        rw [holders_append, holders_single] at hpq
        by_cases hd : d ∈ a.dirs
        · rw [if_pos hd] at hpq
          match h : holders pre d with
          | [] => rw [h] at hpq; simp at hpq
          | [p'] =>
            rw [h] at hpq
            simp at hpq
            obtain ⟨rfl, rfl⟩ := hpq
            by_contra hn
            exact hmis ⟨d, (hmemr d).2 ⟨p', h⟩, hd, fun h' => hn ((hagree d p' hd h).1 h')⟩
          | p' :: q' :: l => have := hl d hd; rw [h] at this; simp at this
        · rw [if_neg hd, List.append_nil] at hpq
          exact hi.agrees d p q hpq

theorem countStep {ds : List ℕ} : ∀ acc : List ℕ, (∀ d, acc.count d ≤ 2) →
    ((∀ d, (acc ++ ds).count d ≤ 2) → ds.foldlM (fun (dirs : List ℕ) d => if ¬ dirs.count d ≤ 1 then (.throws : Out (List ℕ)) else .ok (dirs ++ [d])) acc = .ok (acc ++ ds)) ∧
    (¬ (∀ d, (acc ++ ds).count d ≤ 2) → ds.foldlM (fun (dirs : List ℕ) d => if ¬ dirs.count d ≤ 1 then (.throws : Out (List ℕ)) else .ok (dirs ++ [d])) acc = .throws) := by
  induction ds with
  | nil =>
    intro acc h
    exact ⟨fun _ => by simp, fun hn => absurd (by simpa using h) hn⟩
  | cons e ds ih =>
    intro acc h
    rw [List.foldlM_cons]
    by_cases he : acc.count e ≤ 1
    · rw [if_neg (by simpa using he), Out.ok_bind]
      have := ih (acc ++ [e]) (by
        intro d
        rw [List.count_append, List.count_singleton]
        by_cases hd : e = d
        · subst hd; simp; omega
        · simp [hd]; exact h d)
      simpa using this
    · rw [if_pos (by simpa using he)]
      refine ⟨fun hh => ?_, fun _ => rfl⟩
      have := hh e
      rw [List.count_append, List.count_cons_self] at this
      omega

theorem checkDirs_spec : ∀ (args : List Position) (acc : List ℕ), (∀ d, acc.count d ≤ 2) →
    ((∀ a ∈ args, a.is_diag) → (∀ d, (acc ++ args.flatMap Position.dirs).count d ≤ 2) → checkDirs args acc = .ok ()) ∧
    ((¬ (∀ a ∈ args, a.is_diag) ∨ ¬ ∀ d, (acc ++ args.flatMap Position.dirs).count d ≤ 2) → checkDirs args acc = .throws)
  | [], acc, h => ⟨fun _ _ => rfl, by
      rintro (hn | hn)
      · exact absurd (by simp) hn
      · exact absurd (by simpa using h) hn⟩
  | a :: as, acc, h => by
    classical
    rw [checkDirs]
    by_cases ha : a.is_diag
    · rw [if_neg (by simpa using ha)]
      by_cases hc : ∀ d, (acc ++ a.dirs).count d ≤ 2
      · rw [(countStep acc h).1 hc, Out.ok_bind]
        have := checkDirs_spec as (acc ++ a.dirs) hc
        simpa [ha] using this
      · rw [(countStep acc h).2 hc]
        refine ⟨fun _ hh => ?_, fun _ => rfl⟩
        refine absurd (fun d => ?_) hc
        have := hh d
        rw [List.flatMap_cons, ← List.append_assoc, List.count_append] at this
        omega
    · rw [if_pos ha]
      exact ⟨fun hh => absurd (hh a (by simp)) ha, fun _ => rfl⟩

theorem count_holders {args : List Position} (h : ∀ a ∈ args, PosOk a) (d : ℕ) :
    (args.flatMap Position.dirs).count d = (holders args d).length := by
  induction args with
  | nil => rfl
  | cons a as ih =>
    rw [List.flatMap_cons, List.count_append, ih fun b hb => h b (by simp [hb]), show a :: as = [a] ++ as from rfl, holders_append,
      List.length_append, holders_single]
    congr 1
    by_cases hd : d ∈ a.dirs
    · rw [if_pos hd, List.count_eq_one_of_mem (h a (by simp)).nodup hd]; rfl
    · rw [if_neg hd, List.count_eq_zero_of_not_mem hd]; rfl

theorem pos_project_spec {p : Position} (hp : PosOk p) {ds : List ℕ} (hd : p.is_diag) (hs : ds.Pairwise (· ≤ ·)) :
    ((∀ d ∈ ds, d ∈ p.dirs) → ∃ g, (∀ d ∈ ds, Has p d (g d)) ∧ pos_project p ds = .ok (assemble ds (ds.map g))) ∧
    ((∃ d ∈ ds, d ∉ p.dirs) → pos_project p ds = .throws) := by
  classical
  constructor
  · intro h
    obtain ⟨g, hg, hm⟩ := mapM_readDir (p := fun _ => p) (dirs := ds) (fun _ _ => hp) h
    refine ⟨g, hg, ?_⟩
    rw [pos_project, if_neg (by tauto), hm, Out.ok_bind]
    exact mk_project (by simp)
  · rintro ⟨d, hd', hn⟩
    rw [pos_project, if_neg (by tauto), mapM_throws]
    · rfl
    · intro e _
      by_cases he : e ∈ p.dirs
      · obtain ⟨x, hx⟩ := exists_has hp he
        exact .inl ⟨x, readDir_has hp hx⟩
      · exact .inr (readDir_missing he)
    · exact ⟨d, hd', readDir_missing hn⟩

end Hermipy
