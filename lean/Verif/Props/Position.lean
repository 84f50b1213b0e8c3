import Verif.Lemmas.Weight

/-! # C52, C53, C54: positions -/

namespace Hermipy.Props
open Hermipy Hermipy.Spec

/-! ## Concrete positions -/

/-- Directions `0` (Hermite, mean 1, variance 2) and `3` (Fourier, mean 0, variance 1). -/
def pos03 : Position := ⟨2, [0, 3], [1, 0], [[2, 0], [0, 1]], ["hermite", "fourier"]⟩
/-- Directions `1` and `0`, in this order. -/
def pos10 : Position := ⟨2, [1, 0], [5, 1], [[7, 0], [0, 2]], ["hermite", "hermite"]⟩

theorem pos03_ok : PosOk pos03 := ⟨rfl, rfl, rfl, by simp [pos03], rfl, by decide⟩
theorem pos10_ok : PosOk pos10 := ⟨rfl, rfl, rfl, by simp [pos10], rfl, by decide⟩

theorem diagonal2 {p : Position} {a b : ℝ} (h : p.cov = [[a, 0], [0, b]]) : Diagonal p := by
  intro i j r c hij hr hc
  rw [h] at hr
  match i, j, hij with
  | 0, 0, h => exact absurd rfl h
  | 0, 1, _ => simp at hr; subst hr; simpa using hc.symm
  | 0, j + 2, _ => simp at hr; subst hr; simp at hc
  | 1, 0, _ => simp at hr; subst hr; simpa using hc.symm
  | 1, 1, h => exact absurd rfl h
  | 1, j + 2, _ => simp at hr; subst hr; simp at hc
  | i + 2, _, _ => simp at hr

theorem pos03_diagonal : Diagonal pos03 := diagonal2 rfl
theorem pos10_diagonal : Diagonal pos10 := diagonal2 rfl

/-! ## C52 -/

/-- **C52.** Tensorizing diagonal positions in which no direction appears three times, and in which those appearing twice agree on mean
and variance, gives the position whose directions are those appearing exactly once, with the mean, variance and type that their only
holder has; the directions are in increasing order (and the covariance is exactly diagonal) as soon as there are two arguments. Missing
for the full statement: see `C52_single_false`. -/
theorem C52_tensorize_partial (args : List Position) (hne : args ≠ []) (hok : ∀ a ∈ args, PosOk a) (hdiag : ∀ a ∈ args, a.is_diag)
    (hcount : ∀ d, (holders args d).length ≤ 2) (hag : Agrees args) :
    ∃ r, pos_tensorize args = .ok r ∧ PosOk r ∧ (∀ d, d ∈ r.dirs ↔ (holders args d).length = 1) ∧
      (∀ d x, Has r d x ↔ ∃ p, holders args d = [p] ∧ Has p d x) ∧
      (2 ≤ args.length → r.dirs.Pairwise (· < ·) ∧ Diagonal r) := by
  have hc := (checkDirs_spec args [] (by simp)).1 hdiag (by
    intro d
    rw [List.nil_append, count_holders hok]
    exact hcount d)
  match args, hne with
  | a :: as, _ =>
    have ha : PosOk a := hok a (by simp)
    have h0 : TensorInv [a] a := by
      refine ⟨ha, ?_, ?_, by simp⟩
      · intro d x
        rw [holders_single]
        by_cases hd : d ∈ a.dirs
        · rw [if_pos hd]
          exact ⟨fun h => ⟨a, rfl, h⟩, fun ⟨p, e, h⟩ => by rw [List.singleton_inj.1 e]; exact h⟩
        · rw [if_neg hd]
          exact ⟨fun h => absurd h.mem hd, fun ⟨p, e, _⟩ => by simp at e⟩
      · intro d p q h
        rw [holders_single] at h
        split at h <;> simp at h
    rcases tensorFold as [a] a hok (by simp) hcount h0 with ⟨r, e, hi⟩ | ⟨-, hn⟩
    · refine ⟨r, ?_, hi.ok, ?_, hi.has, hi.tail⟩
      · rw [pos_tensorize, hc, Out.ok_bind]
        exact e
      · intro d
        rw [mem_iff_has hi.ok]
        constructor
        · rintro ⟨x, hx⟩
          obtain ⟨p, hp, -⟩ := (hi.has d x).1 hx
          have hp : holders (a :: as) d = [p] := hp
          rw [hp]; rfl
        · intro hl
          obtain ⟨p, hp⟩ := List.length_eq_one_iff.1 hl
          have : p ∈ holders (a :: as) d := by rw [hp]; simp
          rw [mem_holders] at this
          obtain ⟨x, hx⟩ := exists_has (hok p this.1) this.2
          exact ⟨x, (hi.has d x).2 ⟨p, hp, hx⟩⟩
    · exact absurd hag hn

/-- **C52.** Everything else is rejected: the empty list, a position that is not diagonal, a direction appearing three times, and a
direction appearing twice with different means or variances. -/
theorem C52_rejects (args : List Position) (hok : ∀ a ∈ args, PosOk a)
    (h : args = [] ∨ (∃ a ∈ args, ¬ a.is_diag) ∨ (∃ d, 3 ≤ (holders args d).length) ∨ ¬ Agrees args) :
    pos_tensorize args = .throws := by
  match args with
  | [] => rfl
  | a :: as =>
    by_cases hdiag : ∀ b ∈ a :: as, b.is_diag
    · by_cases hcount : ∀ d, (holders (a :: as) d).length ≤ 2
      · have hn : ¬ Agrees (a :: as) := by
          rcases h with h | ⟨b, hb, hn⟩ | ⟨d, hd⟩ | h
          · simp at h
          · exact absurd (hdiag b hb) hn
          · have := hcount d; omega
          · exact h
        have hc := (checkDirs_spec (a :: as) [] (by simp)).1 hdiag (by
          intro d
          rw [List.nil_append, count_holders hok]
          exact hcount d)
        have ha : PosOk a := hok a (by simp)
        have h0 : TensorInv [a] a := by
          refine ⟨ha, ?_, ?_, by simp⟩
          · intro d x
            rw [holders_single]
            by_cases hd : d ∈ a.dirs
            · rw [if_pos hd]
              exact ⟨fun h => ⟨a, rfl, h⟩, fun ⟨p, e, h⟩ => by rw [List.singleton_inj.1 e]; exact h⟩
            · rw [if_neg hd]
              exact ⟨fun h => absurd h.mem hd, fun ⟨p, e, _⟩ => by simp at e⟩
          · intro d p q h
            rw [holders_single] at h
            split at h <;> simp at h
        rcases tensorFold as [a] a hok (by simp) hcount h0 with ⟨r, -, hi⟩ | ⟨e, -⟩
        · exact absurd hi.agrees hn
        · rw [pos_tensorize, hc, Out.ok_bind]
          exact e
      · rw [pos_tensorize, (checkDirs_spec (a :: as) [] (by simp)).2 (.inr ?_)]
        · rfl
        · simp only [List.nil_append, count_holders hok]
          exact hcount
    · rw [pos_tensorize, (checkDirs_spec (a :: as) [] (by simp)).2 (.inl hdiag)]
      rfl

/-- A single position is returned as it is. -/
theorem C52_single (a : Position) (h : PosOk a) (hd : a.is_diag) : pos_tensorize [a] = .ok a := by
  rw [pos_tensorize, (checkDirs_spec [a] [] (by simp)).1 (by simpa using hd) ?_, Out.ok_bind]
  · rfl
  · intro d
    rw [List.nil_append, count_holders (by simpa using h), holders_single]
    split <;> simp

/-- **C52, negation for one argument.** The directions of the result need not be sorted. -/
theorem C52_single_false : ∃ args r, args ≠ [] ∧ (∀ a ∈ args, PosOk a) ∧ (∀ a ∈ args, a.is_diag) ∧ (∀ d, (holders args d).length ≤ 2) ∧
    Agrees args ∧ pos_tensorize args = .ok r ∧ ¬ r.dirs.Pairwise (· ≤ ·) := by
  refine ⟨[pos10], pos10, by simp, by simpa using pos10_ok, by simpa using pos10_diagonal.is_diag, ?_, ?_,
    C52_single _ pos10_ok pos10_diagonal.is_diag, by decide⟩
  · intro d; rw [holders_single]; split <;> simp
  · intro d p q h; rw [holders_single] at h; split at h <;> simp at h

theorem holders_pair (a b : Position) (d : ℕ) : holders [a, b] d = (if d ∈ a.dirs then [a] else []) ++ if d ∈ b.dirs then [b] else [] := by
  rw [show [a, b] = [a] ++ [b] from rfl, holders_append, holders_single, holders_single]

/-- A case meeting the hypotheses of `C52_tensorize_partial` in which the direction `0`, common to both positions, disappears. -/
example : (∀ a ∈ [pos03, pos10], PosOk a) ∧ (∀ a ∈ [pos03, pos10], a.is_diag) ∧ (∀ d, (holders [pos03, pos10] d).length ≤ 2) ∧
    Agrees [pos03, pos10] := by
  refine ⟨?_, ?_, ?_, ?_⟩
  · simpa using ⟨pos03_ok, pos10_ok⟩
  · simpa using ⟨pos03_diagonal.is_diag, pos10_diagonal.is_diag⟩
  · intro d; rw [holders_pair]; split <;> split <;> simp
  · intro d p q h
    rw [holders_pair] at h
    split at h <;> split at h <;> simp at h
    obtain ⟨rfl, rfl⟩ := h
    rename_i h1 h2
    have hd : d = 0 := by
      simp [pos03] at h1
      simp [pos10] at h2
      omega
    subst hd
    intro x y hx hy
    rw [hx.unique pos03_ok (y := (1, 2, "hermite")) ⟨0, [2, 0], rfl, rfl, rfl, rfl, rfl⟩,
      hy.unique pos10_ok (y := (1, 2, "hermite")) ⟨1, [0, 2], rfl, rfl, rfl, rfl, rfl⟩]
    exact ⟨rfl, rfl⟩

/-- The types of the two holders of a direction are not compared: a Hermite and a Fourier direction cancel. -/
theorem C52_types_unchecked : ∃ p q : Position, PosOk p ∧ PosOk q ∧ p.types ≠ q.types ∧ ∃ r, pos_tensorize [p, q] = .ok r ∧ r.dirs = [] := by
  have hp : PosOk ⟨1, [0], [0], [[1]], ["hermite"]⟩ := ⟨rfl, rfl, rfl, by simp, rfl, by decide⟩
  have hq : PosOk ⟨1, [0], [0], [[1]], ["fourier"]⟩ := ⟨rfl, rfl, rfl, by simp, rfl, by decide⟩
  have diag : ∀ t, Diagonal ⟨1, [0], [0], [[1]], t⟩ := by
    intro t i j r c hij hr hc
    match i, j, hij with
    | 0, 0, h => exact absurd rfl h
    | 0, j + 1, _ => simp at hr; subst hr; simp at hc
    | i + 1, _, _ => simp at hr
  refine ⟨_, _, hp, hq, by simp, ?_⟩
  obtain ⟨r, e, ok, hd, -, -⟩ := C52_tensorize_partial [⟨1, [0], [0], [[1]], ["hermite"]⟩, ⟨1, [0], [0], [[1]], ["fourier"]⟩] (by simp)
    (by simpa using ⟨hp, hq⟩) (by simpa using ⟨(diag _).is_diag, (diag _).is_diag⟩)
    (by intro d; rw [holders_pair]; split <;> simp)
    (by
      intro d p q h
      rw [holders_pair] at h
      split at h <;> simp at h
      obtain ⟨rfl, rfl⟩ := h
      rename_i h1
      simp at h1
      subst h1
      intro x y hx hy
      rw [hx.unique hp (y := (0, 1, "hermite")) ⟨0, [1], rfl, rfl, rfl, rfl, rfl⟩,
        hy.unique hq (y := (0, 1, "fourier")) ⟨0, [1], rfl, rfl, rfl, rfl, rfl⟩]
      exact ⟨rfl, rfl⟩)
  refine ⟨r, e, List.eq_nil_iff_forall_not_mem.2 fun d h => ?_⟩
  rw [hd, holders_pair] at h
  by_cases h0 : d ∈ [0] <;> simp [h0] at h

/-! ## C53 -/

/-- Projection keeps what the position says about the directions. -/
theorem C53_project (p : Position) (ds : List ℕ) (hp : PosOk p) (hd : p.is_diag) (hs : ds.Pairwise (· < ·)) (h : ∀ d ∈ ds, d ∈ p.dirs) :
    ∃ r, pos_project p ds = .ok r ∧ PosOk r ∧ Diagonal r ∧ r.dirs = ds ∧ ∀ d x, Has r d x ↔ d ∈ ds ∧ Has p d x := by
  obtain ⟨g, hg, e⟩ := (pos_project_spec hp hd (hs.imp le_of_lt)).1 h
  refine ⟨_, e, assemble_ok (by simp) (hs.imp (ne_of_lt ·)), assemble_diagonal _ _, rfl, ?_⟩
  intro d x
  rw [assemble_has]
  constructor
  · rintro ⟨hd, rfl⟩; exact ⟨hd, hg d hd⟩
  · rintro ⟨hd, hx⟩; exact ⟨hd, hx.unique hp (hg d hd)⟩

/-- The projection raises when the position is not diagonal, when the directions are not sorted, and when one is missing. -/
theorem C53_project_rejects (p : Position) (ds : List ℕ) (hp : PosOk p)
    (h : ¬ p.is_diag ∨ ¬ ds.Pairwise (· ≤ ·) ∨ ∃ d ∈ ds, d ∉ p.dirs) : pos_project p ds = .throws := by
  classical
  by_cases h1 : ¬ p.is_diag ∨ ¬ ds.Pairwise (· ≤ ·)
  · rw [pos_project, if_pos h1]
  · have h1' : p.is_diag ∧ ds.Pairwise (· ≤ ·) := by tauto
    exact (pos_project_spec hp h1'.1 h1'.2).2 (by tauto)

/-- **C53.** Projecting a diagonal position on the blocks of a partition of its directions and tensorizing the results gives a position
with the same directions, in increasing order, that says the same about each of them. -/
theorem C53_project_tensorize (p : Position) (Ds : List (List ℕ)) (hp : PosOk p) (hd : p.is_diag) (hne : Ds ≠ [])
    (hs : ∀ ds ∈ Ds, ds.Pairwise (· < ·)) (hpart : Ds.flatten.Perm p.dirs) :
    ∃ ps r, Ds.mapM (pos_project p) = .ok ps ∧ pos_tensorize ps = .ok r ∧ PosOk r ∧ Diagonal r ∧ r.dirs.Pairwise (· < ·) ∧
      ∀ d x, Has r d x ↔ Has p d x := by
  classical
  have hproj : ∀ ds ∈ Ds, ∃ r, pos_project p ds = .ok r ∧ PosOk r ∧ Diagonal r ∧ r.dirs = ds ∧ ∀ d x, Has r d x ↔ d ∈ ds ∧ Has p d x :=
    fun ds hds => C53_project p ds hp hd (hs ds hds) fun d hdd => hpart.mem_iff.1 (List.mem_flatten.2 ⟨ds, hds, hdd⟩)
  have : ∀ ds, ∃ r, ds ∈ Ds → pos_project p ds = .ok r ∧ PosOk r ∧ Diagonal r ∧ r.dirs = ds ∧ ∀ d x, Has r d x ↔ d ∈ ds ∧ Has p d x := by
    intro ds
    by_cases h : ds ∈ Ds
    · obtain ⟨r, hr⟩ := hproj ds h; exact ⟨r, fun _ => hr⟩
    · exact ⟨p, fun h' => absurd h' h⟩
  choose f hf using this
  have hmap : Ds.mapM (pos_project p) = .ok (Ds.map f) := mapM_ok fun ds h => (hf ds h).1
  have hdirs : (Ds.map f).flatMap Position.dirs = Ds.flatten := by
    rw [List.flatMap_map, List.flatMap_def]
    congr 1
    conv_rhs => rw [← List.map_id Ds]
    exact List.map_congr_left fun ds h => (hf ds h).2.2.2.1
  have hok : ∀ a ∈ Ds.map f, PosOk a := by
    intro a ha
    obtain ⟨ds, h, rfl⟩ := List.mem_map.1 ha
    exact (hf ds h).2.1
  have hdiag : ∀ a ∈ Ds.map f, Diagonal a := by
    intro a ha
    obtain ⟨ds, h, rfl⟩ := List.mem_map.1 ha
    exact (hf ds h).2.2.1
  have hone : ∀ d, (holders (Ds.map f) d).length = if d ∈ p.dirs then 1 else 0 := by
    intro d
    rw [← count_holders hok, hdirs, hpart.count_eq]
    split
    · exact List.count_eq_one_of_mem hp.nodup (by assumption)
    · exact List.count_eq_zero_of_not_mem (by assumption)
  obtain ⟨r, e, ok, hmem, hhas, htail⟩ := C52_tensorize_partial (Ds.map f) (by simpa using hne) hok (fun a ha => (hdiag a ha).is_diag)
    (by intro d; rw [hone]; split <;> omega)
    (by
      intro d a b h
      have := hone d
      rw [h] at this
      split at this <;> simp at this)
  have hsort : r.dirs.Pairwise (· < ·) ∧ Diagonal r := by
    match Ds, hne with
    | [ds], _ =>
      have h1 := hf ds (by simp)
      have hr : Out.ok r = Out.ok (f ds) := e.symm.trans (C52_single (f ds) h1.2.1 h1.2.2.1.is_diag)
      cases hr
      rw [h1.2.2.2.1]
      exact ⟨hs ds (by simp), h1.2.2.1⟩
    | _ :: _ :: _, _ => exact htail (by simp)
  refine ⟨_, r, hmap, e, ok, hsort.2, hsort.1, ?_⟩
  intro d x
  rw [hhas]
  constructor
  · rintro ⟨a, ha, hx⟩
    have : a ∈ holders (Ds.map f) d := by rw [ha]; simp
    obtain ⟨ds, h, rfl⟩ := List.mem_map.1 (mem_holders.1 this).1
    exact (((hf ds h).2.2.2.2 d x).1 hx).2
  · intro hx
    have hl := hone d
    rw [if_pos hx.mem] at hl
    obtain ⟨a, ha⟩ := List.length_eq_one_iff.1 hl
    refine ⟨a, ha, ?_⟩
    have : a ∈ holders (Ds.map f) d := by rw [ha]; simp
    obtain ⟨hm, hda⟩ := mem_holders.1 this
    obtain ⟨ds, h, rfl⟩ := List.mem_map.1 hm
    refine ((hf ds h).2.2.2.2 d x).2 ⟨?_, hx⟩
    rw [(hf ds h).2.2.2.1] at hda
    exact hda

/-- **C53.** If the covariance is exactly diagonal and the directions are in increasing order, this is the original position. -/
theorem C53_project_tensorize_eq (p : Position) (Ds : List (List ℕ)) (hp : PosOk p) (hd : Diagonal p) (hsd : p.dirs.Pairwise (· < ·))
    (hne : Ds ≠ []) (hs : ∀ ds ∈ Ds, ds.Pairwise (· < ·)) (hpart : Ds.flatten.Perm p.dirs) :
    ∃ ps, Ds.mapM (pos_project p) = .ok ps ∧ pos_tensorize ps = .ok p := by
  obtain ⟨ps, r, e1, e2, ok, diag, sorted, has⟩ := C53_project_tensorize p Ds hp hd.is_diag hne hs hpart
  have hdirs : r.dirs = p.dirs := by
    refine List.Perm.eq_of_pairwise (le := (· < ·)) (fun a b _ _ h h' => absurd h (lt_asymm h')) sorted hsd ?_
    refine (List.perm_ext_iff_of_nodup ok.nodup hp.nodup).2 fun d => ?_
    simp [mem_iff_has ok, mem_iff_has hp, has]
  rw [position_ext ok hp diag hd hdirs fun d x => (has d x).1] at e2
  exact ⟨ps, e1, e2⟩

/-- **C53.** A position that the code takes for diagonal (off-diagonal part of norm less than `1e-10`) is equal to the result in the sense
of `__eq__`. -/
theorem C53_project_tensorize_close (p : Position) (Ds : List (List ℕ)) (hp : PosOk p) (hn : offDiagNorm p.dim p.cov < 1 / 10 ^ 10)
    (hsd : p.dirs.Pairwise (· < ·)) (hne : Ds ≠ []) (hs : ∀ ds ∈ Ds, ds.Pairwise (· < ·)) (hpart : Ds.flatten.Perm p.dirs) :
    ∃ ps r, Ds.mapM (pos_project p) = .ok ps ∧ pos_tensorize ps = .ok r ∧ pos_eq r p := by
  obtain ⟨ps, r, e1, e2, ok, diag, sorted, has⟩ := C53_project_tensorize p Ds hp (fun h => absurd h.2 (not_lt.2 hn.le)) hne hs hpart
  have hdirs : r.dirs = p.dirs := by
    refine List.Perm.eq_of_pairwise (le := (· < ·)) (fun a b _ _ h h' => absurd h (lt_asymm h')) sorted hsd ?_
    refine (List.perm_ext_iff_of_nodup ok.nodup hp.nodup).2 fun d => ?_
    simp [mem_iff_has ok, mem_iff_has hp, has]
  have hdim : r.dim = p.dim := by rw [← ok.dirs, ← hp.dirs, hdirs]
  have key : ∀ i, i < p.dim → r.mean[i]? = p.mean[i]? ∧ r.types[i]? = p.types[i]? ∧ entryOf r.cov i i = entryOf p.cov i i := by
    intro i hi
    have h1 : i < p.dirs.length := by rw [hp.dirs]; exact hi
    obtain ⟨x, hx⟩ := exists_has hp (List.getElem_mem h1)
    obtain ⟨s, a1, a2, a3, a4⟩ := idxOf_has hp hx
    obtain ⟨t, b1, b2, b3, b4⟩ := idxOf_has ok ((has _ _).2 hx)
    rw [hp.nodup.idxOf_getElem] at a1 a2 a3 a4
    rw [hdirs, hp.nodup.idxOf_getElem] at b1 b2 b3 b4
    refine ⟨b1.trans a1.symm, b4.trans a4.symm, ?_⟩
    simp [entryOf, a2, a3, b2, b3]
  have hmean : r.mean = p.mean := by
    refine List.ext_getElem? fun i => ?_
    by_cases hi : i < p.dim
    · exact (key i hi).1
    · rw [List.getElem?_eq_none (by rw [ok.mean]; omega), List.getElem?_eq_none (by rw [hp.mean]; omega)]
  have htypes : r.types = p.types := by
    refine List.ext_getElem? fun i => ?_
    by_cases hi : i < p.dim
    · exact (key i hi).2.1
    · rw [List.getElem?_eq_none (by rw [ok.types]; omega), List.getElem?_eq_none (by rw [hp.types]; omega)]
  refine ⟨ps, r, e1, e2, hdirs, ?_, ?_, htypes⟩
  · rw [hmean]
    have : ∀ l : List ℝ, ((List.zipWith (· - ·) l l).map (· ^ 2)).sum = 0 := by
      intro l
      induction l with
      | nil => rfl
      | cons a l ih => simpa using ih
    rw [this]
    norm_num
  · suffices h : ∀ n, n = p.dim →
        ‖Matrix.toEuclideanCLM (n := Fin n) (𝕜 := ℝ) (Matrix.of fun i j => entryOf r.cov i j - entryOf p.cov i j)‖ < 1 / 10 ^ 10 from h _ hdim
    rintro _ rfl
    have : (Matrix.of fun i j : Fin p.dim => entryOf r.cov i j - entryOf p.cov i j) =
        -(Matrix.of fun i j : Fin p.dim => if i = j then (0 : ℝ) else entryOf p.cov i j) := by
      ext i j
      by_cases h : i = j
      · subst h
        simp [(key i i.2).2.2]
      · simp [h, entryOf_diagonal diag (fun e => h (Fin.ext e))]
    rw [this, map_neg, norm_neg]
    exact hn

/-- **C53.** Projecting a tensor product of positions without common directions on the directions of one factor gives this factor. -/
theorem C53_tensorize_project (args : List Position) (a : Position) (ha : a ∈ args) (hok : ∀ b ∈ args, PosOk b)
    (hdiag : ∀ b ∈ args, Diagonal b) (hdisj : args.Pairwise fun b c => b.dirs.Disjoint c.dirs) (hs : a.dirs.Pairwise (· < ·)) :
    ∃ r, pos_tensorize args = .ok r ∧ pos_project r a.dirs = .ok a := by
  have hone : ∀ d, (holders args d).length ≤ 1 := by
    intro d
    rw [holders]
    induction args with
    | nil => simp
    | cons b l ih => ?_
    clear ha hok hdiag hs
    have hd := List.pairwise_cons.1 hdisj
    by_cases hb : d ∈ b.dirs
    · have : l.filter (fun c => decide (d ∈ c.dirs)) = [] := by
        rw [List.filter_eq_nil_iff]
        intro c hc
        have := hd.1 c hc hb
        simpa using this
      rw [List.filter_cons_of_pos (by simpa using hb), this]
      rfl
    · rw [List.filter_cons_of_neg (by simpa using hb)]
      clear ih
      induction l with
      | nil => simp
      | cons c l ih2 => ?_
      have hd' := List.pairwise_cons.1 hd.2
      by_cases hc : d ∈ c.dirs
      · have : l.filter (fun e => decide (d ∈ e.dirs)) = [] := by
          rw [List.filter_eq_nil_iff]
          intro e he
          have := hd'.1 e he hc
          simpa using this
        rw [List.filter_cons_of_pos (by simpa using hc), this]
        rfl
      · rw [List.filter_cons_of_neg (by simpa using hc)]
        exact ih2 (List.pairwise_cons.2 ⟨fun e he => hd.1 e (by simp [he]), hd'.2⟩) ⟨fun e he => hd.1 e (by simp [he]), hd'.2⟩
  obtain ⟨r, e, ok, -, has, tail⟩ := C52_tensorize_partial args (List.ne_nil_of_mem ha) hok (fun b hb => (hdiag b hb).is_diag)
    (fun d => (hone d).trans (by omega))
    (by
      intro d p q h
      have := hone d
      rw [h] at this
      simp at this)
  have rdiag : Diagonal r := by
    match args, ha with
    | [b], _ =>
      have h1 := hdiag b (by simp)
      have hr : Out.ok r = Out.ok b := e.symm.trans (C52_single b (hok b (by simp)) h1.is_diag)
      cases hr
      exact h1
    | _ :: _ :: _, _ => exact (tail (by simp)).2
  have hsub : ∀ d x, Has a d x → Has r d x := by
    intro d x hx
    rw [has]
    have hmem : a ∈ holders args d := mem_holders.2 ⟨ha, hx.mem⟩
    have := hone d
    match h : holders args d with
    | [] => rw [h] at hmem; simp at hmem
    | [b] =>
      rw [h] at hmem
      rw [← List.mem_singleton.1 hmem]
      exact ⟨a, rfl, hx⟩
    | _ :: _ :: _ => rw [h] at this; simp at this
  obtain ⟨q, e', okq, diagq, dirsq, hasq⟩ := C53_project r a.dirs ok rdiag.is_diag hs (by
    intro d hd
    obtain ⟨x, hx⟩ := exists_has (hok a ha) hd
    exact (hsub d x hx).mem)
  refine ⟨r, e, ?_⟩
  rw [e']
  congr 1
  refine (position_ext (hok a ha) okq (hdiag a ha) diagq dirsq.symm ?_).symm
  intro d x hx
  rw [hasq]
  exact ⟨hx.mem, hsub d x hx⟩

/-- Cases meeting the hypotheses: the blocks `[3], [0]` of `pos03`, and two positions without common directions. -/
example : pos03.dirs.Pairwise (· < ·) ∧ (∀ ds ∈ [[3], [0]], ds.Pairwise (· < ·)) ∧ [[3], [0]].flatten.Perm pos03.dirs :=
  ⟨by decide, by decide, by decide⟩
example : [pos03, ⟨1, [2], [4], [[9]], ["hermite"]⟩].Pairwise fun b c => b.dirs.Disjoint c.dirs := by
  simp [pos03]

/-! ## C54 -/

/-- The weight and the one-dimensional weights of a diagonal position with positive variances: `weights()` is the list of normal densities
(one for the Fourier directions), and `weight()` is their product divided by `(2π)^(f/2)`, where `f` is the number of Fourier directions
- except that it is one without Hermite directions. -/
theorem C54_weight (p : Position) (x : ℕ → ℝ) (hp : PosOk p) (hd : Diagonal p) (h5 : ∀ d ∈ p.dirs, d < 5) (hv : PosVar p) :
    ∃ w, pos_weight p x = .ok w ∧ pos_weights p x = .ok ((List.range p.dim).map (weight1D p x)) ∧
      w = if hermiteDirs p = 0 then 1 else ((List.range p.dim).map (weight1D p x)).prod / √((2 * Real.pi) ^ otherDirs p) := by
  classical
  have hpi := Real.pi_pos
  refine ⟨_, pos_weight_eval hp hd h5 hv x, ?_, ?_⟩
  · rw [pos_weights, if_neg (by simpa using hd.is_diag)]
    have e : p.dirs = (List.range p.dim).map fun i => p.dirs.getD i 0 := by
      refine List.ext_getElem (by simp [hp.dirs]) ?_
      intro i h h'
      simp [List.getElem?_eq_getElem h]
    rw [e, List.mapM_map]
    refine mapM_ok fun i hi => ?_
    have hi' : i < p.dirs.length := by rw [hp.dirs]; exact List.mem_range.1 hi
    have : p.dirs.getD i 0 = p.dirs[i] := by simp [hi']
    rw [Function.comp, this]
    exact one_dir_weight hp hd.is_diag h5 hv x hi'
  · rw [hermite_count, weight1D_prod hp, density_prod]
    · split
      · rfl
      · rw [hermite_count, ← hermite_add_other hp]
        generalize (List.map (fun i => entryOf p.cov i i) _).prod = P
        have : √((2 * Real.pi) ^ (hermiteDirs p + otherDirs p) * P) = √((2 * Real.pi) ^ hermiteDirs p * P) * √((2 * Real.pi) ^ otherDirs p) := by
          rw [← Real.sqrt_mul' _ (by positivity)]
          congr 1
          ring
        generalize Real.exp _ = E
        rw [this, one_div_mul_eq_div, one_div_mul_eq_div, div_div]
    · intro i hi
      rw [List.mem_filter, List.mem_range, hp.types] at hi
      exact hv i hi.1 (by simpa using hi.2)

/-- **C54.** `weight()` is the product of `weights()` for the positions with Hermite directions only, or Fourier directions only. Missing for
the full statement: mixtures, see `C54_false`. -/
theorem C54_product_partial (p : Position) (x : ℕ → ℝ) (hp : PosOk p) (hd : Diagonal p) (h5 : ∀ d ∈ p.dirs, d < 5) (hv : PosVar p)
    (h : hermiteDirs p = 0 ∨ otherDirs p = 0) : ∃ w ws, pos_weight p x = .ok w ∧ pos_weights p x = .ok ws ∧ w = ws.prod := by
  obtain ⟨w, e1, e2, hw⟩ := C54_weight p x hp hd h5 hv
  refine ⟨w, _, e1, e2, ?_⟩
  rw [hw]
  split
  · rename_i h0
    rw [weight1D_prod hp]
    have := hermite_count p
    rw [h0, List.length_eq_zero_iff] at this
    rw [this]
    rfl
  · rw [h.resolve_left (by assumption)]
    simp

/-- **C54.** For every mixture of Hermite and Fourier directions, and at every point, `weight()` is smaller than the product of
`weights()`. -/
theorem C54_mixture (p : Position) (x : ℕ → ℝ) (hp : PosOk p) (hd : Diagonal p) (h5 : ∀ d ∈ p.dirs, d < 5) (hv : PosVar p)
    (h : 0 < hermiteDirs p) (h' : 0 < otherDirs p) : ∃ w ws, pos_weight p x = .ok w ∧ pos_weights p x = .ok ws ∧ w < ws.prod := by
  obtain ⟨w, e1, e2, hw⟩ := C54_weight p x hp hd h5 hv
  refine ⟨w, _, e1, e2, ?_⟩
  rw [hw, if_neg h.ne']
  have hpos : 0 < ((List.range p.dim).map (weight1D p x)).prod := by
    refine List.prod_pos fun a ha => ?_
    obtain ⟨i, hi, rfl⟩ := List.mem_map.1 ha
    exact weight1D_pos hv x (List.mem_range.1 hi)
  refine div_lt_self hpos ?_
  rw [Real.lt_sqrt (by norm_num), one_pow]
  exact one_lt_pow₀ (by have := Real.pi_gt_three; linarith) h'.ne'

theorem pos03_var : PosVar pos03 := by
  intro i hi h
  have : i < 2 := hi
  match i with
  | 0 => simp [pos03, entryOf]
  | 1 => simp [pos03] at h

/-- **C54, negation.** -/
theorem C54_false : ∃ p x, PosOk p ∧ Diagonal p ∧ PosVar p ∧ ∃ w ws, pos_weight p x = .ok w ∧ pos_weights p x = .ok ws ∧ w ≠ ws.prod := by
  obtain ⟨w, ws, e1, e2, h⟩ := C54_mixture pos03 (fun _ => 0) pos03_ok pos03_diagonal (by simp [pos03]) pos03_var (by decide) (by decide)
  exact ⟨pos03, fun _ => 0, pos03_ok, pos03_diagonal, pos03_var, w, ws, e1, e2, h.ne⟩

/-- A case meeting the hypotheses of `C54_product_partial`. -/
example : PosVar pos10 ∧ otherDirs pos10 = 0 ∧ ∀ d ∈ pos10.dirs, d < 5 := by
  refine ⟨?_, by decide, by decide⟩
  intro i hi _
  have : i < 2 := hi
  match i with
  | 0 => simp [pos10, entryOf]
  | 1 => simp [pos10, entryOf]

end Hermipy.Props
