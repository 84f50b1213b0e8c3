import Verif.Lemmas.CacheError
import Verif.Props.Cache

/-! # C92: results are compared with cached results -/

namespace Hermipy.Props
open Hermipy Hermipy.Spec Hermipy.Cache

theorem closeTo_single {quiet : Bool} {u v : Res} {e : ℝ} (h : theError u v = .ok [e]) :
    closeTo quiet u v = .ok true ↔ e < 1 / 10 ^ 10 := by
  rw [closeTo, h]
  simp

/-- The values which are compared. -/
theorem same_places {u v : Res} (hu : Checkable u) (hv : Checkable v) (hs : SamePlaces u v) :
    (∃ b q b' r, u = .num b q ∧ v = .num b' r ∧ theError u v = .ok [|(q : ℝ) - r|]) ∨
    (∃ n d e, u = .array [n] d ∧ v = .array [n] e ∧ d.length = n ∧ e.length = n ∧
      theError u v = .ok [vecNorm (List.zipWith (· - ·) d e)]) ∨
    (∃ m n d e, u = .array [m, n] d ∧ v = .array [m, n] e ∧ d.length = m * n ∧ e.length = m * n ∧
      theError u v = .ok [matNorm m n (List.zipWith (· - ·) d e)]) ∨
    (∃ m n e e', u = .csr m n e ∧ v = .csr m n e' ∧ e.map (·.1) = e'.map (·.1) ∧ (e.map (·.1)).Nodup ∧ (∀ p ∈ e, p.1.1 < m ∧ p.1.2 < n) ∧
      theError u v = .ok [vecNorm (List.zipWith (· - ·) (e.map (·.2)) (e'.map (·.2)))]) := by
  cases hu with
  | num b q =>
    cases hv with
    | num b' r => exact .inl ⟨b, q, b', r, rfl, rfl, rfl⟩
    | _ => exact hs.elim
  | vector n d hd =>
    cases hv with
    | vector n' e he =>
      obtain rfl : n = n' := by simpa [SamePlaces] using hs
      exact .inr (.inl ⟨n, d, e, rfl, rfl, hd, he, by rw [theError, arrayError_vec hd he]; rfl⟩)
    | matrix => simp [SamePlaces] at hs
    | _ => exact hs.elim
  | matrix m n d hd hm hn =>
    cases hv with
    | matrix m' n' e he =>
      obtain ⟨rfl, rfl⟩ : m = m' ∧ n = n' := by simpa [SamePlaces] using hs
      exact .inr (.inr (.inl ⟨m, n, d, e, rfl, rfl, hd, he, by rw [theError, arrayError_mat hm hn hd he]; rfl⟩))
    | vector => simp [SamePlaces] at hs
    | _ => exact hs.elim
  | csr m n e hin =>
    cases hv with
    | csr m' n' e' =>
      obtain ⟨rfl, rfl, he, hnd⟩ := hs
      refine .inr (.inr (.inr ⟨m, n, e, e', rfl, rfl, he, hnd, hin, ?_⟩))
      have hl : e'.length = e.length := by simpa using (congrArg List.length he).symm
      rw [theError, hl, arrayError_vec (by simp) (by simp [hl])]
      rfl
    | _ => exact hs.elim

/-- **C92.** Numbers, vectors, matrices, and sparse matrices with the same places: if the comparison passes, all entries differ by less than
`1e-10`. -/
theorem C92_detects_partial (quiet : Bool) {u v : Res} (hu : Checkable u) (hv : Checkable v) (hs : SamePlaces u v)
    (h : closeTo quiet u v = .ok true) : Near (1 / 10 ^ 10) u v := by
  rcases same_places hu hv hs with ⟨b, q, b', r, rfl, rfl, he⟩ | ⟨n, d, e, rfl, rfl, hd, hd', he⟩ | ⟨m, n, d, e, rfl, rfl, hd, hd', he⟩ |
    ⟨m, n, e, e', rfl, rfl, hp, hnd, hin, he⟩
  · exact (closeTo_single he).mp h
  · exact ⟨rfl, fun i _ => vec_near (hd.trans hd'.symm) ((closeTo_single he).mp h) i⟩
  · refine ⟨rfl, fun i hi => ?_⟩
    have hi : i < m * n := by simpa using hi
    have hn : 0 < n := Nat.pos_of_ne_zero fun h0 => by simp [h0] at hi
    rw [← getD_sub (hd.trans hd'.symm)]
    refine lt_of_le_of_lt ?_ ((closeTo_single he).mp h)
    have := entry_le_matNorm (m := m) (n := n) (List.zipWith (· - ·) d e) (i := i / n) (j := i % n)
      (Nat.div_lt_of_lt_mul (by rwa [mul_comm])) (Nat.mod_lt _ hn)
    rwa [mul_comm (i / n), Nat.div_add_mod] at this
  · refine ⟨rfl, rfl, fun i _ j _ => ?_⟩
    by_cases hm : (i, j) ∈ e.map (·.1)
    · obtain ⟨k, hk, hkk⟩ := List.getElem_of_mem hm
      have hk' : k < (e'.map (·.1)).length := hp ▸ hk
      have e1 : (e'.map (·.1))[k] = (i, j) := by rw [← hkk]; simp only [hp]
      rw [List.length_map] at hk hk'
      rw [List.getElem_map] at hkk e1
      have := vec_near (d := e.map (·.2)) (e := e'.map (·.2)) (by simpa using congrArg List.length hp) ((closeTo_single he).mp h) k
      rw [List.getD_eq_getElem _ _ (by simpa using hk), List.getD_eq_getElem _ _ (by simpa using hk'), List.getElem_map,
        List.getElem_map] at this
      rwa [entry_of_mem hnd (x := e[k].2) (by rw [← hkk]; exact List.getElem_mem hk),
        entry_of_mem (hp ▸ hnd) (x := e'[k].2) (by rw [← e1]; exact List.getElem_mem hk')]
    · rw [entry_of_not_mem hm, entry_of_not_mem (hp ▸ hm)]
      norm_num

/-- **C92.** Conversely, the comparison passes if all entries differ by less than `1e-10` divided by their number. -/
theorem C92_accepts (quiet : Bool) {u v : Res} (hu : Checkable u) (hv : Checkable v) (hs : SamePlaces u v)
    (h : Near (1 / 10 ^ 10 / size u) u v) : closeTo quiet u v = .ok true := by
  rcases same_places hu hv hs with ⟨b, q, b', r, rfl, rfl, he⟩ | ⟨n, d, e, rfl, rfl, hd, hd', he⟩ | ⟨m, n, d, e, rfl, rfl, hd, hd', he⟩ |
    ⟨m, n, e, e', rfl, rfl, hp, hnd, hin, he⟩ <;> refine (closeTo_single he).mpr ?_
  · simpa [Near, size] using h
  · refine vec_accept (hd.trans hd'.symm) (by norm_num) fun i hi => ?_
    have := h.2 i (by simpa [← hd] using hi)
    simpa [size, ← hd] using this
  · refine lt_of_le_of_lt (matNorm_le_vecNorm (by simp [hd, hd'])) ?_
    refine vec_accept (hd.trans hd'.symm) (by norm_num) fun i hi => ?_
    have := h.2 i (by simpa [← hd] using hi)
    simpa [size, hd] using this
  · have hl : e.length = e'.length := by simpa using congrArg List.length hp
    refine vec_accept (by simpa using hl) (by norm_num) fun k hk => ?_
    rw [List.length_map] at hk
    have hk' := hl ▸ hk
    have e1 : e[k].1 = e'[k].1 := by
      have : (e.map (·.1))[k]'(by simpa using hk) = (e'.map (·.1))[k]'(by simpa using hk') := by simp only [hp]
      rwa [List.getElem_map, List.getElem_map] at this
    have hb := hin _ (List.getElem_mem hk)
    have := h.2.2 _ hb.1 _ hb.2
    rw [entry_of_mem hnd (i := e[k].1.1) (j := e[k].1.2) (x := e[k].2) (List.getElem_mem hk),
      entry_of_mem (hp ▸ hnd) (i := e[k].1.1) (j := e[k].1.2) (x := e'[k].2) (by rw [e1]; exact List.getElem_mem hk')] at this
    rw [List.length_map, List.getD_eq_getElem _ _ (by simpa using hk), List.getD_eq_getElem _ _ (by simpa using hk'), List.getElem_map,
      List.getElem_map]
    exact this

theorem vecNorm_self (d : List ℝ) : vecNorm (List.zipWith (· - ·) d d) = 0 := by
  rw [List.zipWith_self]
  simp [vecNorm]

/-- **C92.** A result passes the comparison with itself as loaded from its file. -/
theorem C92_fresh (quiet : Bool) {v w : Res} (hv : Checkable v) (hw : store v = .loads w) : closeTo quiet v w = .ok true := by
  cases hv with
  | num b q =>
    obtain rfl : Res.num false q = w := by simpa [store] using hw
    exact (closeTo_single rfl).mpr (by norm_num)
  | vector n d hd =>
    obtain rfl : Res.array [n] d = w := by simpa [store] using hw
    exact C92_accepts quiet (.vector n d hd) (.vector n d hd) rfl ⟨rfl, fun i hi => by
      rw [sub_self, abs_zero]
      have : 0 < n := by simp at hi; omega
      simp only [size, List.prod_cons, List.prod_nil, mul_one]
      positivity⟩
  | matrix m n d hd hm hn =>
    obtain rfl : Res.array [m, n] d = w := by simpa [store] using hw
    exact C92_accepts quiet (.matrix m n d hd hm hn) (.matrix m n d hd hm hn) rfl ⟨rfl, fun i hi => by
      rw [sub_self, abs_zero]
      simp only [size, List.prod_cons, List.prod_nil, mul_one]
      positivity⟩
  | csr m n e hin =>
    obtain rfl : Res.csr m n e = w := by simpa [store] using hw
    refine (closeTo_single (e := 0) ?_).mpr (by norm_num)
    rw [theError, arrayError_vec (by simp) (by simp), vecNorm_self]
    rfl

/-- **C92.** Functions decorated with `cache`, in any history of calls, settings and keywords `cache`: if all calls of a function have the same
signature and the results are numbers, vectors, matrices, sparse matrices or tuples, every call returns what the function itself returns — also
those with `cache=False`, which compare — unless two of the hashed byte strings collide. -/
theorem C92_transparent_partial {Fn : Type} (md5 : ByteArray → Str) (name : Fn → Str) (fn : Fn → Call → Out Res)
    (extend : Fn → ℕ → Option Str) (quiet : Fn → Bool) (h : List (Request Fn)) (hm : Digest md5)
    (hname : ∀ r ∈ h, ∀ r' ∈ h, name r.fn = name r'.fn → r.fn = r'.fn)
    (hsig : ∀ r ∈ h, ∀ r' ∈ h, r.fn = r'.fn → SameSignature r.call r'.call)
    (hkey : ∀ r ∈ h, ∃ k, fileName md5 (extend r.fn) (name r.fn) r.call = .ok k)
    (hres : ∀ r ∈ h, ∀ v, fn r.fn r.call = .ok v → Checkable v ∨ ∃ p, v = .tuple p) :
    Transparent md5 ⟨name, fun f => decorator (extend f) (quiet f), fn⟩ h ∨
      ∃ r ∈ h, ∃ r' ∈ h, r.fn = r'.fn ∧
        Collision md5 (callMessages md5 (extend r.fn) r.call) (callMessages md5 (extend r'.fn) r'.call) := by
  refine C47_partial md5 ⟨name, fun f => decorator (extend f) (quiet f), fn⟩ h hm hname hsig hkey ?_
  intro r hr v w hv hw
  rcases hres r hr v hv with hc | ⟨p, rfl⟩
  · exact C92_fresh _ hc hw
  · simp [store] at hw

/-- The file of a call is found, and what it contains. -/
def FileHolds (md5 : ByteArray → Str) (extend : ℕ → Option Str) (name : Str) (s : Settings) (c : Call) (files : Files) (w : Res) : Prop :=
  ∃ k, fileName md5 extend name c = .ok k ∧
    ((isSparse w = false ∧ files ⟨s.cachedir, k, [.npy]⟩ = some (.loads w)) ∨
      (isSparse w = true ∧ files ⟨s.cachedir, k, [.npy]⟩ = none ∧ files ⟨s.cachedir, k, [.npz]⟩ = some (.loads w)))

/-- What a call returns that compares with the file. -/
theorem wrapper_compares {md5 : ByteArray → Str} {dec : Decorator} {name : Str} {f : Call → Out Res} {s : Settings} {o : Option Bool}
    {c : Call} {files : Files} {w : Res} (ho : o.getD s.cache = false) (hf : FileHolds md5 dec.extend name s c files w) :
    (wrapper md5 dec name f s o c files).1 = compareResult dec (isSparse w) w (f c) := by
  obtain ⟨k, hk, ⟨h1, h2⟩ | ⟨h1, h2, h3⟩⟩ := hf
  · rw [wrapper]
    simp only [hk, h2, ho, h1]
    rfl
  · rw [wrapper]
    simp only [hk, h2, h3, ho, h1]
    rfl

/-- **C92.** Whatever files there are: if the file of a call holds a number, a vector, a matrix, or a sparse matrix with the same places, which
differs from the result by `1e-10` or more in some entry, the call with `cache=False` raises. -/
theorem C92_stale_partial {md5 : ByteArray → Str} {extend : ℕ → Option Str} {name : Str} {f : Call → Out Res} {s : Settings}
    {o : Option Bool} {c : Call} {files : Files} {v w : Res} (ho : o.getD s.cache = false) (hf : FileHolds md5 extend name s c files w)
    (hv : f c = .ok v) (cv : Checkable v) (cw : Checkable w) (hs : SamePlaces v w) (hne : ¬ Near (1 / 10 ^ 10) v w) :
    (wrapper md5 (decorator extend false) name f s o c files).1 = .throws := by
  rw [wrapper_compares ho hf, compareResult, hv]
  have : ∃ b, closeTo false v w = .ok b := by
    rcases same_places cv cw hs with ⟨b, q, b', r, rfl, rfl, he⟩ | ⟨n, d, e, rfl, rfl, hd, hd', he⟩ |
      ⟨m, n, d, e, rfl, rfl, hd, hd', he⟩ | ⟨m, n, e, e', rfl, rfl, hp, hnd, hin, he⟩ <;> exact ⟨_, by rw [closeTo, he]; rfl⟩
  obtain ⟨b, hb⟩ := this
  cases b with
  | true => exact absurd (C92_detects_partial false cv cw hs hb) hne
  | false => simp [decorator, hb]

/-- **C92.** If the file holds values within `1e-10` divided by the number of entries, the call with `cache=False` returns the result. -/
theorem C92_confirms {md5 : ByteArray → Str} {extend : ℕ → Option Str} {name : Str} {f : Call → Out Res} {s : Settings} {quiet : Bool}
    {o : Option Bool} {c : Call} {files : Files} {v w : Res} (ho : o.getD s.cache = false) (hf : FileHolds md5 extend name s c files w)
    (hv : f c = .ok v) (cv : Checkable v) (cw : Checkable w) (hs : SamePlaces v w) (hne : Near (1 / 10 ^ 10 / size v) v w) :
    (wrapper md5 (decorator extend quiet) name f s o c files).1 = .ok v := by
  rw [wrapper_compares ho hf, compareResult, hv]
  have hb := C92_accepts quiet cv cw hs hne
  have hsp : isSparse w = isSparse v := by
    cases cv <;> cases cw <;> first | rfl | exact hs.elim
  simp [decorator, hb, hsp]

/-- **C92.** With `quiet=True`, a call that compares returns the result whatever the file holds, provided computing the error does not raise. -/
theorem C92_quiet {md5 : ByteArray → Str} {extend : ℕ → Option Str} {name : Str} {f : Call → Out Res} {s : Settings}
    {o : Option Bool} {c : Call} {files : Files} {v w : Res} (ho : o.getD s.cache = false) (hf : FileHolds md5 extend name s c files w)
    (hv : f c = .ok v) {e : List ℝ} (he : theError v w = .ok e) :
    (wrapper md5 (decorator extend true) name f s o c files).1 = .ok v := by
  rw [wrapper_compares ho hf, compareResult, hv]
  have : ∃ b, closeTo true v w = .ok b := by
    rw [closeTo, he]
    rcases e with _ | ⟨a, _ | ⟨b, e⟩⟩ <;> exact ⟨_, rfl⟩
  obtain ⟨b, hb⟩ := this
  simp [decorator, hb]

/-- **C92, finding.** Sparse matrices are compared without their places: matrices of different shapes pass, and so does a matrix and its
transpose, or any other arrangement of the same stored numbers. -/
theorem C92_sparse_false (quiet : Bool) (m n m' n' : ℕ) (e e' : List ((ℕ × ℕ) × ℝ)) (h : e.map (·.2) = e'.map (·.2)) :
    closeTo quiet (.csr m n e) (.csr m' n' e') = .ok true := by
  have hl : e'.length = e.length := by simpa using (congrArg List.length h).symm
  refine (closeTo_single (e := 0) ?_).mpr (by norm_num)
  rw [theError, hl, ← h, arrayError_vec (by simp) (by simp), vecNorm_self]
  rfl

/-- Two of them, which are not near. -/
example : ∃ u v : Res, Checkable u ∧ Checkable v ∧ ¬ Near (1 / 10 ^ 10) u v ∧ closeTo false u v = .ok true := by
  refine ⟨.csr 2 2 [((0, 1), 1)], .csr 2 2 [((1, 0), 1)], .csr _ _ _ (by simp), .csr _ _ _ (by simp), ?_, C92_sparse_false _ _ _ _ _ _ _ rfl⟩
  rintro ⟨-, -, h⟩
  have := h 0 (by norm_num) 1 (by norm_num)
  norm_num [sparseEntry] at this

/-- **C92, finding.** Results with three or more axes never pass: the comparison raises, although the file holds the same numbers. -/
theorem C92_axes_false {md5 : ByteArray → Str} {extend : ℕ → Option Str} {name : Str} {f : Call → Out Res} {s : Settings} {quiet : Bool}
    {o : Option Bool} {c : Call} {files : Files} {a1 a2 a3 : ℕ} {t : List ℕ} {d : List ℝ} (hd : d.length = (a1 :: a2 :: a3 :: t).prod)
    (ho : o.getD s.cache = false) (hf : FileHolds md5 extend name s c files (.array (a1 :: a2 :: a3 :: t) d))
    (hv : f c = .ok (.array (a1 :: a2 :: a3 :: t) d)) :
    (wrapper md5 (decorator extend quiet) name f s o c files).1 = .throws := by
  rw [wrapper_compares ho hf, compareResult, hv]
  have : closeTo quiet (.array (a1 :: a2 :: a3 :: t) d) (.array (a1 :: a2 :: a3 :: t) d) = .throws := by
    rw [closeTo, theError, arrayError, subArrays_self hd hd]
    rfl
  simp [decorator, this]

/-- **C92, finding.** Shapes are not compared: a vector of equal entries passes the comparison with the number. -/
theorem C92_shape_false (quiet : Bool) (n : ℕ) (q : ℚ) (b : Bool) :
    closeTo quiet (.array [n] (List.replicate n (q : ℝ))) (.num b q) = .ok true := by
  refine (closeTo_single (e := 0) ?_).mpr (by norm_num)
  have hr : bshape [n] [] = .ok [n] := by
    simp only [bshape, List.length_singleton, List.length_nil]
    rw [if_neg (by simp)]
    by_cases hn : n = 1 <;> simp [hn]
  have he : expand [1] [n] [(q : ℝ)] = List.replicate n (q : ℝ) := by
    by_cases hn : n = 1
    · subst hn
      exact expand_self [1] _ rfl
    · rw [expand, if_neg (fun h => hn h.symm)]
      simp [expand]
  rw [theError, arrayError, subArrays, hr]
  simp only [Out.ok_bind, List.length_singleton, List.length_nil, Nat.sub_self, List.replicate_zero, List.nil_append, Nat.sub_zero,
    List.replicate_one, List.append_nil, he]
  rw [expand_self _ _ (by simp), npNorm, vecNorm_self]
  rfl

/-- Numbers, vectors, matrices and sparse matrices which differ or are near. -/
example : ∃ u v w : Res, Checkable u ∧ Checkable v ∧ Checkable w ∧ SamePlaces u v ∧ SamePlaces u w ∧ u ≠ v ∧ Near (1 / 10 ^ 10 / size u) u v ∧
    ¬ Near (1 / 10 ^ 10) u w := by
  refine ⟨.csr 2 3 [((0, 1), 2), ((1, 2), 3)], .csr 2 3 [((0, 1), 2), ((1, 2), 3 + 1 / 10 ^ 12)], .csr 2 3 [((0, 1), 2), ((1, 2), 4)],
    .csr _ _ _ (by simp), .csr _ _ _ (by simp), .csr _ _ _ (by simp), ⟨rfl, rfl, rfl, by simp⟩, ⟨rfl, rfl, rfl, by simp⟩, ?_, ⟨rfl, rfl, ?_⟩, ?_⟩
  · intro h
    norm_num at h
  · intro i hi j hj
    interval_cases i <;> interval_cases j <;> norm_num [sparseEntry, size]
  · rintro ⟨-, -, h⟩
    have := h 1 (by norm_num) 2 (by norm_num)
    norm_num [sparseEntry] at this

/-- A vector, a matrix, and a file which holds one. -/
example (md5 : ByteArray → Str) (name : Str) : Checkable (.array [2] [1, 2]) ∧ Checkable (.array [2, 3] [1, 2, 3, 4, 5, 6]) ∧
    ¬ Near (1 / 10 ^ 10) (.array [2] [1, 2]) (.array [2] [1, 3]) ∧
    ∃ files, FileHolds md5 (fun _ => none) name on (call1 (.num .int 1)) files (.array [2] [1, 3]) := by
  refine ⟨.vector _ _ rfl, .matrix _ _ _ rfl (by norm_num) (by norm_num), ?_, ?_⟩
  · rintro ⟨-, h⟩
    have := h 1 (by norm_num)
    norm_num at this
  · obtain ⟨k, hk⟩ := key_num md5 (fun _ => none) name .int 1
    exact ⟨fun _ => some (.loads (.array [2] [1, 3])), k, hk, .inl ⟨rfl, rfl⟩⟩

end Hermipy.Props
