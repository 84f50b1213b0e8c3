import Verif.Lemmas.Cache

/-! # C47, C48: the result cache

`md5` is an arbitrary function whose values have 32 characters without dash; nothing else is assumed about it. A statement that two calls
have different keys holds "unless two of the byte strings hashed for them collide", and the byte strings are listed. -/

namespace Hermipy.Props
open Hermipy Spec Cache

/-! ## C48: keys -/

/-- **C48.** Calls of functions of the same name with the same signature, that is with comparable arguments in each place: if they share
a key then they are the same call, unless two of the byte strings hashed for them collide.

Missing for the claim: pairs of calls that are not comparable in this sense, for which it is false (see `C48_false` and the theorems
below), and non-integral numbers. -/
theorem C48_partial (md5 : ByteArray → Str) (extend : ℕ → Option Str) (hm : Digest md5) (name k : Str) (c c' : Call)
    (hs : SameSignature c c') (h : fileName md5 extend name c = .ok k) (h' : fileName md5 extend name c' = .ok k) :
    c = c' ∨ Collision md5 (callMessages md5 extend c) (callMessages md5 extend c') := fileName_sep hm hs h h'

/-- **C48.** Functions of different names never share a key. -/
theorem C48_names (md5 : ByteArray → Str) (extend extend' : ℕ → Option Str) (hm : Digest md5) (name name' k : Str) (c c' : Call)
    (h : fileName md5 extend name c = .ok k) (h' : fileName md5 extend' name' c' = .ok k) : name = name' := fileName_name hm h h'

/-- The call `f(a)`. -/
def call1 (a : Arg) : Call := ⟨[a], []⟩

theorem fileName_call1 (md5 : ByteArray → Str) (extend : ℕ → Option Str) (name : Str) (a b : Arg)
    (h : theHash md5 extend a = theHash md5 extend b) : fileName md5 extend name (call1 a) = fileName md5 extend name (call1 b) := by
  simp only [fileName, call1, hashList, h]

theorem key_exists (md5 : ByteArray → Str) (extend : ℕ → Option Str) (name : Str) (a : Arg) (s : Str)
    (h : theHash md5 extend a = .ok s) : ∃ k, fileName md5 extend name (call1 a) = .ok k :=
  ⟨_, by simp only [fileName, call1, hashList, hashKwargs, h, Out.ok_bind]; rfl⟩

/-- The key of `f(n)` for a number exists. -/
theorem key_num (md5 : ByteArray → Str) (extend : ℕ → Option Str) (name : Str) (t : NumKind) (q : ℚ) :
    ∃ k, fileName md5 extend name (call1 (.num t q)) = .ok k := key_exists md5 extend name _ (hashNum md5 q) (by rw [theHash])

theorem pyHash_neg_one : pyHash (-1) = -2 := by
  have h : (-1 : ℚ) = ((-1 : ℤ) : ℚ) := by norm_num
  rw [h, pyHash]
  simp only [Rat.num_intCast, Rat.den_intCast, Nat.log_one_right]
  decide

theorem pyHash_neg_two : pyHash (-2) = -2 := by
  have h : (-2 : ℚ) = ((-2 : ℤ) : ℚ) := by norm_num
  rw [h, pyHash_int (by norm_num) (by norm_num)]

theorem pyHash_one : pyHash 1 = 1 := by
  have h : (1 : ℚ) = ((1 : ℤ) : ℚ) := by norm_num
  rw [h, pyHash_int (by norm_num) (by norm_num)]

/-- **C48 is false**: whatever `md5`, the calls `f(-1)` and `f(-2)` share a key, because Python's `hash(-1)` is `-2`. -/
theorem C48_false (md5 : ByteArray → Str) (extend : ℕ → Option Str) (name : Str) :
    ∃ k c c', fileName md5 extend name c = .ok k ∧ fileName md5 extend name c' = .ok k ∧ c ≠ c' ∧
      c = call1 (.num .int (-1)) ∧ c' = call1 (.num .int (-2)) := by
  obtain ⟨k, hk⟩ := key_num md5 extend name .int (-1)
  refine ⟨k, _, _, hk, ?_, ?_, rfl, rfl⟩
  · rw [← hk]
    exact fileName_call1 md5 extend name _ _ (by rw [theHash, theHash, hashNum, hashNum, pyHash_neg_one, pyHash_neg_two])
  · intro e
    have e := (Arg.num.inj (List.cons.inj (Call.mk.inj e).1).1).2
    norm_num at e

/-- Large integers too: `f(1)` and `f(2^61)` share a key. -/
theorem C48_modulus_false (md5 : ByteArray → Str) (extend : ℕ → Option Str) (name : Str) :
    ∃ k, fileName md5 extend name (call1 (.num .int 1)) = .ok k ∧ fileName md5 extend name (call1 (.num .int (2 ^ 61))) = .ok k := by
  obtain ⟨k, hk⟩ := key_num md5 extend name .int 1
  refine ⟨k, hk, ?_⟩
  rw [← hk]
  refine fileName_call1 md5 extend name _ _ ?_
  have : pyHash (2 ^ 61) = 1 := by
    have h : (2 ^ 61 : ℚ) = ((2 ^ 61 : ℤ) : ℚ) := by norm_num
    rw [h, pyHash]
    simp only [Rat.num_intCast, Rat.den_intCast, Nat.log_one_right]
    norm_num [P]
  rw [theHash, theHash, hashNum, hashNum, pyHash_one, this]

/-- Floats too: `f(0.5)` and `f(2.0 ** 60)` share a key. -/
theorem C48_float_false (md5 : ByteArray → Str) (extend : ℕ → Option Str) (name : Str) :
    ∃ k, fileName md5 extend name (call1 (.num .float (1 / 2))) = .ok k ∧
      fileName md5 extend name (call1 (.num .float (2 ^ 60))) = .ok k := by
  obtain ⟨k, hk⟩ := key_num md5 extend name .float (1 / 2)
  refine ⟨k, hk, ?_⟩
  rw [← hk]
  refine fileName_call1 md5 extend name _ _ ?_
  have h1 : pyHash (2 ^ 60) = 2 ^ 60 := by
    have h : (2 ^ 60 : ℚ) = ((2 ^ 60 : ℤ) : ℚ) := by norm_num
    rw [h, pyHash_int (by norm_num) (by norm_num)]
  have h2 : pyHash (1 / 2) = 2 ^ 60 := by
    have hn : (1 / 2 : ℚ).num = 1 := by rw [one_div]; exact (Rat.inv_natCast_num_of_pos (a := 2) (by norm_num))
    have hd : (1 / 2 : ℚ).den = 2 := by rw [one_div]; exact (Rat.inv_natCast_den_of_pos (a := 2) (by norm_num))
    have hl : Nat.log 2 2 = 1 := Nat.log_pow (b := 2) (by norm_num) 1
    rw [pyHash, hn, hd, hl]
    norm_num [P]
  rw [theHash, theHash, hashNum, hashNum, h1, h2]

/-- Values of different types: `1`, `1.0`, `True` and the string `"1"` share a key; so do `None` and the empty string. -/
theorem C48_types_false (md5 : ByteArray → Str) (extend : ℕ → Option Str) (name : Str) :
    (∃ k, fileName md5 extend name (call1 (.num .int 1)) = .ok k ∧ fileName md5 extend name (call1 (.num .float 1)) = .ok k ∧
      fileName md5 extend name (call1 (.num .bool 1)) = .ok k ∧ fileName md5 extend name (call1 (.str ['1'])) = .ok k) ∧
    (∃ k, fileName md5 extend name (call1 .none) = .ok k ∧ fileName md5 extend name (call1 (.str [])) = .ok k) := by
  have hd : decimal 1 = ['1'] := by simp [decimal]
  constructor
  · obtain ⟨k, hk⟩ := key_num md5 extend name .int 1
    refine ⟨k, hk, ?_, ?_, ?_⟩
    · rw [← hk]; exact fileName_call1 md5 extend name _ _ (by rw [theHash, theHash])
    · rw [← hk]; exact fileName_call1 md5 extend name _ _ (by rw [theHash, theHash])
    · rw [← hk]; exact fileName_call1 md5 extend name _ _ (by rw [theHash, theHash, hashNum, pyHash_one, hd])
  · obtain ⟨k, hk⟩ := key_exists md5 extend name .none _ (by rw [theHash])
    exact ⟨k, hk, by rw [← hk]; exact fileName_call1 md5 extend name _ _ (by rw [theHash, theHash])⟩

/-- Arrays: neither shape nor type of the elements enters the key. The second half: a list and a tuple of the same elements share a key. -/
theorem C48_arrays_false (md5 : ByteArray → Str) (extend : ℕ → Option Str) (name : Str) (bytes : ByteArray) (d d' : String) (n n' : ℕ)
    (s s' : List ℕ) :
    (∃ k, fileName md5 extend name (call1 (.ndarray ⟨true, d, n, s, bytes⟩)) = .ok k ∧
      fileName md5 extend name (call1 (.ndarray ⟨true, d', n', s', bytes⟩)) = .ok k) ∧
    ∀ xs, fileName md5 extend name (call1 (.seq .list xs)) = fileName md5 extend name (call1 (.seq .tuple xs)) := by
  constructor
  · obtain ⟨k, hk⟩ := key_exists md5 extend name (.ndarray ⟨true, d, n, s, bytes⟩) (md5 bytes) (by rw [theHash, hashArray]; rfl)
    refine ⟨k, hk, ?_⟩
    rw [← hk]
    exact fileName_call1 md5 extend name _ _ (by rw [theHash, theHash, hashArray, hashArray])
  · intro xs
    exact fileName_call1 md5 extend name _ _ (by rw [theHash, theHash])

/-- Keywords: `f("n", x)` and `f(n=x)` share a key. -/
theorem C48_keyword_false (md5 : ByteArray → Str) (extend : ℕ → Option Str) (name n : Str) (x : Arg) :
    fileName md5 extend name ⟨[.str n, x], []⟩ = fileName md5 extend name ⟨[], [(n, x)]⟩ := by
  rw [fileName, fileName]
  simp only [hashList, hashKwargs, theHash, Out.ok_bind]
  cases theHash md5 extend x with
  | ok h => rfl
  | stop s => rfl
  | diverge => rfl

/-- With `hash_extend=lambda arg: '0'`, all objects of other types share a key: the preconditioner in `Varf.solve`, varf.py:211-215. -/
theorem C48_extend_false (md5 : ByteArray → Str) (name : Str) (a M M' : ℕ) (x : Arg) :
    fileName md5 (fun _ => some ['0']) name ⟨[x, .other a], [("M".toList, .other M)]⟩ =
      fileName md5 (fun _ => some ['0']) name ⟨[x, .other a], [("M".toList, .other M')]⟩ := by
  simp only [fileName, hashList, hashKwargs, theHash]

/-- The hypotheses of `C48_partial` and `C48_names` can be met. -/
def md5Example (b : ByteArray) : Str := List.replicate 31 'a' ++ [if b.size = 0 then '0' else '1']

theorem md5Example_digest : Digest md5Example := by
  intro b
  refine ⟨by simp [md5Example], ?_⟩
  rw [md5Example, List.mem_append, not_or]
  constructor
  · intro h
    have := List.eq_of_mem_replicate h
    revert this; decide
  · split <;> decide

/-- Two calls `transform(5, a, [n1], index_set=s)` with arrays of one axis and the same type have the same signature. -/
example (a b : NdArray) (n1 n2 : ℤ) (s t : Str) (ha : ArrayOk a) (hb : ArrayOk b) (hd : a.dtype = b.dtype) (hi : a.itemsize = b.itemsize)
    (h1 : a.shape.length = 1) (h2 : b.shape.length = 1) (hn1 : 0 ≤ n1 ∧ n1 < 1000) (hn2 : 0 ≤ n2 ∧ n2 < 1000) :
    SameSignature ⟨[.num .int 5, .ndarray a, .seq .list [.num .int n1]], [("index_set".toList, .str s)]⟩
      ⟨[.num .int 5, .ndarray b, .seq .list [.num .int n2]], [("index_set".toList, .str t)]⟩ := by
  have p : ∀ n : ℤ, 0 ≤ n ∧ n < 1000 → PlainInt n := fun n hn => ⟨n, rfl, by omega, by omega⟩
  refine ⟨rfl, ?_, ?_⟩
  · intro i x y hx hy
    match i with
    | 0 =>
      cases hx; cases hy
      exact .num _ _ _ (by simpa using p 5 (by norm_num)) (by simpa using p 5 (by norm_num))
    | 1 => cases hx; cases hy; exact .ndarray _ _ ⟨ha, hb, hd, hi, .inr ⟨h1, h2⟩⟩
    | 2 =>
      cases hx; cases hy
      refine .seq _ _ _ ?_
      intro j x y hx hy
      match j with
      | 0 => cases hx; cases hy; exact .num _ _ _ (p _ hn1) (p _ hn2)
      | j + 1 => simp at hx
    | i + 3 => simp at hx
  · intro i k x y hx hy
    match i with
    | 0 => cases hx; cases hy; exact .str _ _
    | i + 1 => simp at hx

/-! ## C47: transparency -/

/-- **C47.** Any history of calls, with any settings and keywords `cache`: if the calls of the history that share a file name have the
same result, all arguments can be hashed, and a result is close to itself as loaded from its file, then every call returns what the
function itself returns (up to the type of numbers: a float of integral value comes back as an integer).

Missing for the claim: the condition on file names, see `C47_partial` and `C47_false`. -/
theorem C47_separated_partial {Fn : Type} (md5 : ByteArray → Str) (lib : Library Fn) (h : List (Request Fn))
    (hkey : ∀ r ∈ h, ∃ k, fileName md5 (lib.dec r.fn).extend (lib.name r.fn) r.call = .ok k)
    (hclose : ∀ r ∈ h, ∀ v w, lib.fn r.fn r.call = .ok v → store v = .loads w → (lib.dec r.fn).close v w = .ok true)
    (hsep : ∀ r ∈ h, ∀ r' ∈ h, ∀ k, fileName md5 (lib.dec r.fn).extend (lib.name r.fn) r.call = .ok k →
      fileName md5 (lib.dec r'.fn).extend (lib.name r'.fn) r'.call = .ok k → lib.fn r.fn r.call = lib.fn r'.fn r'.call) :
    Transparent md5 lib h := by
  suffices H : ∀ (l : List (Request Fn)) (files : Files), (∀ r ∈ l, r ∈ h) → FilesOk md5 lib h files →
      (outcomes md5 lib l files).map outValue = l.map fun r => outValue (lib.fn r.fn r.call) from
    H h _ (fun r hr => hr) (fun dir base e st hst => by cases hst)
  intro l
  induction l with
  | nil => intro files _ _; rfl
  | cons r l ih =>
    intro files hl hf
    have hr := hl r (by simp)
    obtain ⟨h1, h2⟩ := wrapper_ok hr hf (hkey r hr) (hclose r hr) (hsep r hr)
    rw [outcomes, List.map_cons, List.map_cons, ih _ (fun x hx => hl x (by simp [hx])) h2, h1]

/-- **C47.** Functions of distinct names, where all calls of a function in the history have the same signature: the cache is transparent
unless two of the byte strings hashed in the history collide. -/
theorem C47_partial {Fn : Type} (md5 : ByteArray → Str) (lib : Library Fn) (h : List (Request Fn)) (hm : Digest md5)
    (hname : ∀ r ∈ h, ∀ r' ∈ h, lib.name r.fn = lib.name r'.fn → r.fn = r'.fn)
    (hsig : ∀ r ∈ h, ∀ r' ∈ h, r.fn = r'.fn → SameSignature r.call r'.call)
    (hkey : ∀ r ∈ h, ∃ k, fileName md5 (lib.dec r.fn).extend (lib.name r.fn) r.call = .ok k)
    (hclose : ∀ r ∈ h, ∀ v w, lib.fn r.fn r.call = .ok v → store v = .loads w → (lib.dec r.fn).close v w = .ok true) :
    Transparent md5 lib h ∨ ∃ r ∈ h, ∃ r' ∈ h, r.fn = r'.fn ∧
      Collision md5 (callMessages md5 (lib.dec r.fn).extend r.call) (callMessages md5 (lib.dec r'.fn).extend r'.call) := by
  by_cases hcol : ∃ r ∈ h, ∃ r' ∈ h, r.fn = r'.fn ∧
      Collision md5 (callMessages md5 (lib.dec r.fn).extend r.call) (callMessages md5 (lib.dec r'.fn).extend r'.call)
  · exact .inr hcol
  · left
    refine C47_separated_partial md5 lib h hkey hclose ?_
    intro r hr r' hr' k e e'
    have hfn := hname r hr r' hr' (fileName_name hm e e')
    rcases fileName_sep hm (hsig r hr r' hr' hfn) e (hfn ▸ e') with q | q
    · rw [← hfn, ← q]
    · exact absurd ⟨r, hr, r', hr', hfn, hfn ▸ q⟩ hcol

/-- The function `f(n) = n` on integers. -/
def identity : Call → Out Res
  | ⟨[.num _ q], _⟩ => .ok (.num true q)
  | _ => .throws

/-- A library of one function of this name, compared with equality of numbers. -/
def oneFn (name : Str) : Library Unit :=
  ⟨fun _ => name, fun _ => ⟨fun _ => none, fun v w => match v, w with
    | .num _ p, .num _ q => .ok (decide (p = q))
    | _, _ => .throws, false⟩, fun _ => identity⟩

def on : Settings := ⟨true, ".cache".toList⟩

/-- **C47 is false**: with the cache switched on, `f(-1)` followed by `f(-2)` returns `-1` twice, whatever `md5`. -/
theorem C47_false (md5 : ByteArray → Str) (name : Str) :
    let h := [⟨(), call1 (.num .int (-1)), none, on⟩, ⟨(), call1 (.num .int (-2)), none, on⟩]
    (outcomes md5 (oneFn name) h fun _ => none) = [.ok (.num true (-1)), .ok (.num true (-1))] ∧ ¬ Transparent md5 (oneFn name) h := by
  obtain ⟨k, c, c', h1, h2, -, rfl, rfl⟩ := C48_false md5 (fun _ => none) name
  have e : (outcomes md5 (oneFn name) [⟨(), call1 (.num .int (-1)), none, on⟩, ⟨(), call1 (.num .int (-2)), none, on⟩] fun _ => none) =
      [.ok (.num true (-1)), .ok (.num true (-1))] := by
    simp only [outcomes, wrapper, oneFn, h1, h2]
    simp [computeAndSave, identity, call1, saveResult, on, saveExts, isSparse, store, intify]
  refine ⟨e, fun ht => ?_⟩
  rw [Transparent, e] at ht
  simp [oneFn, identity, call1, outValue, value] at ht

/-- Two functions of the same name share their files: here `f(1) = 1` and another `f(n) = n + 1`, called at `1` one after the other. -/
theorem C47_names_false (md5 : ByteArray → Str) (name : Str) :
    ¬ Transparent md5 (⟨fun _ => name, fun _ => ((oneFn name).dec ()), fun b c => match identity c with
        | .ok (.num t q) => .ok (.num t (if b then q + 1 else q))
        | r => r⟩ : Library Bool)
      [⟨false, call1 (.num .int 1), none, on⟩, ⟨true, call1 (.num .int 1), none, on⟩] := by
  obtain ⟨k, h1⟩ := key_num md5 (fun _ => none) name .int 1
  rw [Transparent]
  simp only [outcomes, wrapper, oneFn, h1]
  simp [computeAndSave, identity, call1, saveResult, on, saveExts, isSparse, store, intify, outValue, value]

/-- A call with an argument of another type (`np.int64`) raises although the function itself returns; also with the cache switched off. -/
theorem C47_unsupported_false (md5 : ByteArray → Str) (name : Str) (s : Settings) (f : Call → Out Res) (dec : Decorator) (id : ℕ)
    (he : dec.extend id = none) (o : Option Bool) (files : Files) :
    (wrapper md5 dec name f s o (call1 (.other id)) files).1 = .throws := by
  have : fileName md5 dec.extend name (call1 (.other id)) = .throws := by
    simp only [fileName, call1, hashList, theHash, he]
    rfl
  rw [wrapper, this]

/-- A history that meets the hypotheses of `C47_separated_partial`, for every `md5`: `f(3)`, then `f(3)` from the cache, then `f(3)` again
without reading the cache, with the cache in another directory. -/
example (md5 : ByteArray → Str) (name : Str) : Transparent md5 (oneFn name)
    [⟨(), call1 (.num .int 3), none, on⟩, ⟨(), call1 (.num .int 3), none, on⟩, ⟨(), call1 (.num .int 3), some false, on⟩,
      ⟨(), call1 (.num .int 3), none, ⟨true, "other".toList⟩⟩] := by
  refine C47_separated_partial md5 _ _ ?_ ?_ ?_
  · intro r hr
    simp only [List.mem_cons, List.not_mem_nil, or_false] at hr
    rcases hr with rfl | rfl | rfl | rfl <;> exact key_num md5 _ name .int 3
  · intro r hr v w hv hw
    have hv : v = .num true 3 := by
      simp only [List.mem_cons, List.not_mem_nil, or_false] at hr
      rcases hr with rfl | rfl | rfl | rfl <;> exact (Out.ok.inj hv).symm
    subst hv
    cases hw
    simp [oneFn]
  · intro r hr r' hr' k _ _
    simp only [List.mem_cons, List.not_mem_nil, or_false] at hr hr'
    rcases hr with rfl | rfl | rfl | rfl <;> rcases hr' with rfl | rfl | rfl | rfl <;> rfl

/-- And one for `C47_partial`: any sequence of calls `f(n)` with `0 ≤ n < 1000`. -/
example (md5 : ByteArray → Str) (hm : Digest md5) (name : Str) (l : List ℕ) (hl : ∀ n ∈ l, n < 1000) :
    Transparent md5 (oneFn name) (l.map fun n : ℕ => ⟨(), call1 (.num .int n), none, on⟩) ∨
      ∃ m ∈ l, ∃ n ∈ l, Collision md5 (callMessages md5 (fun _ => none) (call1 (.num .int m)))
        (callMessages md5 (fun _ => none) (call1 (.num .int n))) := by
  refine (C47_partial md5 (oneFn name) (l.map fun n : ℕ => ⟨(), call1 (.num .int n), none, on⟩) hm (fun _ _ _ _ _ => rfl) ?_ ?_ ?_).imp_right ?_
  · intro r hr r' hr' _
    obtain ⟨m, hm, rfl⟩ := List.mem_map.1 hr
    obtain ⟨n, hn, rfl⟩ := List.mem_map.1 hr'
    have p : ∀ n : ℕ, n < 1000 → PlainInt n := fun n hn => ⟨n, by simp, by omega, by simp; omega⟩
    refine ⟨rfl, ?_, ?_⟩
    · intro i x y hx hy
      match i with
      | 0 => cases hx; cases hy; exact .num _ _ _ (p _ (hl m hm)) (p _ (hl n hn))
      | i + 1 => simp [call1] at hx
    · intro i k x y hx
      simp [call1] at hx
  · intro r hr
    obtain ⟨m, hm, rfl⟩ := List.mem_map.1 hr
    exact key_num md5 _ name .int m
  · intro r hr v w hv hw
    obtain ⟨m, hm, rfl⟩ := List.mem_map.1 hr
    have hv : v = .num true m := (Out.ok.inj hv).symm
    subst hv
    cases hw
    simp [oneFn]
  · rintro ⟨r, hr, r', hr', -, h⟩
    obtain ⟨m, hm, rfl⟩ := List.mem_map.1 hr
    obtain ⟨n, hn, rfl⟩ := List.mem_map.1 hr'
    exact ⟨m, hm, n, hn, h⟩

end Hermipy.Props
