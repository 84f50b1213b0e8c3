import Verif.Out
import Mathlib.Data.Nat.Digits.Defs
import Mathlib.Data.Rat.Defs
import Mathlib.Data.Nat.Log
import Mathlib.Data.Real.Basic

/-! # Model of the result cache (`hermipy/cache.py`)

Strings are lists of characters, `md5` is any function from byte strings to strings of hexadecimal digits. -/

namespace Hermipy.Cache

abbrev Str := List Char

/-- `argument.encode('utf-8')` -/
def encode (s : Str) : ByteArray := (String.ofList s).toByteArray

/-- A numpy array: whether it is C-contiguous, the type of its elements with their size in bytes, its shape and its bytes. -/
structure NdArray where
  contiguous : Bool
  dtype : String
  itemsize : ℕ
  shape : List ℕ
  bytes : ByteArray

inductive NumKind
  | int | float | bool
deriving DecidableEq

inductive SeqKind
  | list | tuple | frozenset
deriving DecidableEq

/-- Arguments of cached functions. Numbers have their exact value (infinities and NaN are left out); a symbolic expression is represented
by its `str`; a dictionary and a frozenset are given in the order of their iteration; anything else (`np.int64` for instance) is `other`. -/
inductive Arg
  | str (s : Str)
  | num (k : NumKind) (q : ℚ)
  | none
  | ndarray (a : NdArray)
  | sympy (s : Str)
  | seq (k : SeqKind) (xs : List Arg)
  | dict (keys values : List Arg)
  | csr (data indices indptr : NdArray) (n1 n2 : ℕ)
  | other (id : ℕ)

/-- The modulus of Python's hash of numbers, on 64-bit machines. -/
def P : ℕ := 2 ^ 61 - 1

/-- Python's `hash` of a number: `|num| / den` modulo `P`, with the sign, and `-1` replaced by `-2`. The denominator of a double is a
power of two, and `2^61` is one modulo `P`. -/
def pyHash (q : ℚ) : ℤ :=
  let h : ℤ := ((q.num.natAbs * 2 ^ (61 - Nat.log 2 q.den % 61)) % P : ℕ)
  let h := if q.num < 0 then -h else h
  if h = -1 then -2 else h

/-- `str(n)` for an integer. -/
def decimal (n : ℤ) : Str :=
  (if n < 0 then ['-'] else []) ++ (if n = 0 then ['0'] else ((Nat.digits 10 n.natAbs).reverse.map Nat.digitChar))

/-- `'-'.join(hashes)` -/
def join (hashes : List Str) : Str := ['-'].intercalate hashes

section
variable (md5 : ByteArray → Str)

/-- The hash of a string. cache.py:40-42. -/
def hashStr (s : Str) : Str := md5 (encode s)

/-- The hash of an array; a buffer which is not C-contiguous raises. cache.py:47-48. -/
def hashArray (a : NdArray) : Out Str := if a.contiguous then .ok (md5 a.bytes) else .throws

/-- The hash of a list, tuple or frozenset, from those of the elements. cache.py:51-53. -/
def hashSeq (hashes : List Str) : Str := hashStr md5 ("list".toList ++ join hashes)

/-- The hash of a number. cache.py:58-59. -/
def hashNum (q : ℚ) : Str := hashStr md5 (decimal (pyHash q))

variable (extend : ℕ → Option Str)

mutual
/-- `the_hash`, cache.py:39-62; `extend` gives the string that the parameter of the same name returns, if any. -/
def theHash : Arg → Out Str
  | .str s => .ok (hashStr md5 s)
  | .csr data indices indptr n1 n2 => do
    let h1 ← hashArray md5 data
    let h2 ← hashArray md5 indices
    let h3 ← hashArray md5 indptr
    .ok (hashSeq md5 [h1, h2, h3, hashSeq md5 [hashNum md5 n1, hashNum md5 n2]])
  | .ndarray a => hashArray md5 a
  | .sympy s => .ok (hashStr md5 s)
  | .seq _ xs => do
    let hashes ← hashList xs
    .ok (hashSeq md5 hashes)
  | .dict keys values => do
    let hk ← hashList keys
    let hv ← hashList values
    .ok (hashSeq md5 ((("k".toList :: hk) ++ ("v".toList :: hv)).map (hashStr md5)))
  | .num _ q => .ok (hashNum md5 q)
  | .none => .ok (hashStr md5 [])
  | .other id => match extend id with
    | some s => .ok (hashStr md5 s)
    | none => .throws

/-- The list of the hashes. -/
def hashList : List Arg → Out (List Str)
  | [] => .ok []
  | x :: xs => do
    let h ← theHash x
    let hs ← hashList xs
    .ok (h :: hs)
end

/-- The arguments of a call, without the keyword `cache`. -/
structure Call where
  args : List Arg
  kwargs : List (Str × Arg)

/-- The hashes of the keyword arguments. cache.py:116-118. -/
def hashKwargs : List (Str × Arg) → Out (List Str)
  | [] => .ok []
  | (k, v) :: kws => do
    let h ← theHash md5 extend v
    let hs ← hashKwargs kws
    .ok (hashStr md5 k :: h :: hs)

/-- The name of the file without its extension. cache.py:113-119, 127. -/
def fileName (name : Str) (c : Call) : Out Str := do
  let h1 ← hashList md5 extend c.args
  let h2 ← hashKwargs md5 extend c.kwargs
  .ok (name ++ '-' :: hashStr md5 (join (h1 ++ h2)))

end

/-! ## The wrapper -/

/-- Results of functions: numbers (`true` for an integer), arrays with at least one axis, sparse matrices, and tuples. -/
inductive Res
  | num (isInt : Bool) (q : ℚ)
  | array (shape : List ℕ) (data : List ℝ)
  | csr (n1 n2 : ℕ) (entries : List ((ℕ × ℕ) × ℝ))
  | tuple (parts : List (List ℝ))

/-- What a file contains: something that can be loaded, or something for which `np.load` raises `ValueError`. -/
inductive Stored
  | loads (r : Res)
  | raises

/-- What `np.save` or `save_npz` writes, as far as loading is concerned: a number is stored in an array without axes and comes back as
a float (cache.py:99-103; exact for doubles and for integers below 2^53); a tuple of arrays of different shapes is stored by pickling,
which `np.load` refuses. -/
def store : Res → Stored
  | .num _ q => .loads (.num false q)
  | .array s d => .loads (.array s d)
  | .csr n1 n2 e => .loads (.csr n1 n2 e)
  | .tuple _ => .raises

/-- Floats with integral value are turned into integers. cache.py:142-145. -/
def intify : Res → Res
  | .num false q => .num (q.den = 1) q
  | r => r

def isSparse : Res → Bool
  | .csr .. => true
  | _ => false

inductive Ext
  | npy | npz
deriving DecidableEq

/-- A file: directory, name without extensions, extensions. -/
structure Path where
  dir : Str
  base : Str
  exts : List Ext
deriving DecidableEq

abbrev Files := Path → Option Stored

/-- `np.save` and `save_npz` append their extension if the name does not end in it. -/
def saveExts (exts : List Ext) (e : Ext) : List Ext := if exts.getLast? = some e then exts else exts ++ [e]

structure Settings where
  cache : Bool
  cachedir : Str

/-- The parameters of the decorator: the extension of the hash, the comparison of a result with a cached result (`error < 1e-10`, see
`gen_error`, cache.py:67-91), and `quiet`. -/
structure Decorator where
  extend : ℕ → Option Str
  close : Res → Res → Out Bool
  quiet : Bool

/-- Saving the result. cache.py:161-164. -/
def saveResult (s : Settings) (files : Files) (p : Path) (r : Res) : Files :=
  if s.cache then
    let q := { p with exts := saveExts p.exts (if isSparse r then .npz else .npy) }
    fun x => if x = q then some (store r) else files x
  else files

/-- Computing and saving. cache.py:149, 161-164. -/
def computeAndSave (s : Settings) (files : Files) (p : Path) (r : Out Res) : Out Res × Files :=
  match r with
  | .ok v => (.ok v, saveResult s files p v)
  | r => (r, files)

/-- Computing although there is a cached result, and comparing. cache.py:149-159. -/
def compareResult (dec : Decorator) (is_sparse_cache : Bool) (cached : Res) (r : Out Res) : Out Res := do
  let result ← r
  let close ← dec.close result cached
  let ok := (is_sparse_cache == isSparse result) && close
  if !dec.quiet && !ok then .throws else .ok result

/-- A call of a decorated function; `override` is the value of the keyword `cache` if present, and `f` the function itself.
cache.py:108-164. -/
def wrapper (md5 : ByteArray → Str) (dec : Decorator) (name : Str) (f : Call → Out Res) (s : Settings) (override : Option Bool) (c : Call)
    (files : Files) : Out Res × Files :=
  let use_cache := override.getD s.cache
  match fileName md5 dec.extend name c with
  | .ok base =>
    let p : Path := ⟨s.cachedir, base, []⟩
    let found : Option (Ext × Stored) :=
      match files { p with exts := [.npy] } with
      | some st => some (.npy, st)
      | none => match files { p with exts := [.npz] } with
        | some st => some (.npz, st)
        | none => none
    match found with
    | none => computeAndSave s files p (f c)
    | some (e, .raises) => computeAndSave s files { p with exts := [e] } (f c)
    | some (e, .loads cached) =>
      if use_cache then (.ok (intify cached), files)
      else (compareResult dec (decide (e = .npz)) cached (f c), files)
  | .stop x => (.stop x, files)
  | .diverge => (.diverge, files)

end Hermipy.Cache
