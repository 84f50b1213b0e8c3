import Verif.Model.Cache

/-! # Which arguments are told apart, and what a transparent cache is -/

namespace Hermipy.Spec
open Hermipy Hermipy.Cache

/-- `md5` returns 32 characters, none of them a dash. -/
def Digest (md5 : ByteArray → Str) : Prop := ∀ b, (md5 b).length = 32 ∧ '-' ∉ md5 b

/-- A collision between one byte string of `U` and another one of `V`. -/
def Collision (md5 : ByteArray → Str) (U V : List ByteArray) : Prop := ∃ u ∈ U, ∃ v ∈ V, u ≠ v ∧ md5 u = md5 v

/-- The number of bytes of an array fits its shape. -/
def ArrayOk (a : NdArray) : Prop := a.contiguous = true ∧ 0 < a.itemsize ∧ a.bytes.size = a.itemsize * a.shape.prod

/-- Integers that Python's hash tells apart: not `-1`, and of absolute value below `2^61 - 1`. -/
def PlainInt (q : ℚ) : Prop := ∃ n : ℤ, q = n ∧ n ≠ -1 ∧ n.natAbs < 2 ^ 61 - 1

/-- Two arrays of the same type which have the same shape, or both have one axis. -/
structure SameArray (a b : NdArray) : Prop where
  left : ArrayOk a
  right : ArrayOk b
  dtype : a.dtype = b.dtype
  itemsize : a.itemsize = b.itemsize
  shape : a.shape = b.shape ∨ (a.shape.length = 1 ∧ b.shape.length = 1)

/-- Two values that may be given for the same parameter: both strings, both plain integers of the same kind, both arrays of the same type
and number of axes, and so on. `None` may stand in place of a list (the parameter `do_fourier` of core.py). -/
inductive Comparable : Arg → Arg → Prop
  | str (s t : Str) : Comparable (.str s) (.str t)
  | sympy (s t : Str) : Comparable (.sympy s) (.sympy t)
  | num (k : NumKind) (q r : ℚ) : PlainInt q → PlainInt r → Comparable (.num k q) (.num k r)
  | none : Comparable .none .none
  | ndarray (a b : NdArray) : SameArray a b → Comparable (.ndarray a) (.ndarray b)
  | seq (k : SeqKind) (xs ys : List Arg) :
      (∀ (i : ℕ) (x y : Arg), xs[i]? = some x → ys[i]? = some y → Comparable x y) → Comparable (.seq k xs) (.seq k ys)
  | dict (ks ks' vs vs' : List Arg) : ks.length = vs.length → ks'.length = vs'.length →
      (∀ (i : ℕ) (x y : Arg), ks[i]? = some x → ks'[i]? = some y → Comparable x y) →
      (∀ (i : ℕ) (x y : Arg), vs[i]? = some x → vs'[i]? = some y → Comparable x y) → Comparable (.dict ks vs) (.dict ks' vs')
  | csr (d d' i i' p p' : NdArray) (n1 n2 n1' n2' : ℕ) : SameArray d d' → SameArray i i' → SameArray p p' →
      n1 < 2 ^ 61 - 1 → n2 < 2 ^ 61 - 1 → n1' < 2 ^ 61 - 1 → n2' < 2 ^ 61 - 1 →
      Comparable (.csr d i p n1 n2) (.csr d' i' p' n1' n2')
  | noneSeq (k : SeqKind) (xs : List Arg) : Comparable .none (.seq k xs)
  | seqNone (k : SeqKind) (xs : List Arg) : Comparable (.seq k xs) .none

/-- Two calls with the same number of positional arguments, comparable argument by argument, whose keyword arguments of equal position and
equal name are comparable. -/
structure SameSignature (c c' : Call) : Prop where
  args : c.args.length = c'.args.length
  comparable : ∀ (i : ℕ) (x y : Arg), c.args[i]? = some x → c'.args[i]? = some y → Comparable x y
  kwargs : ∀ (i : ℕ) (k : Str) (x y : Arg), c.kwargs[i]? = some (k, x) → c'.kwargs[i]? = some (k, y) → Comparable x y

/-! The byte strings given to `md5` in the course of a call. -/

section
variable (md5 : ByteArray → Str) (extend : ℕ → Option Str)

/-- those of the list or tuple with these hashes -/
def seqMsg (hashes : List Str) : ByteArray := encode ("list".toList ++ join hashes)

mutual
/-- The byte strings hashed for an argument. -/
def messages : Arg → List ByteArray
  | .str s => [encode s]
  | .csr d i p n1 n2 =>
    [d.bytes, i.bytes, p.bytes, encode (decimal (pyHash n1)), encode (decimal (pyHash n2)),
      seqMsg [hashNum md5 n1, hashNum md5 n2],
      seqMsg [md5 d.bytes, md5 i.bytes, md5 p.bytes, hashSeq md5 [hashNum md5 n1, hashNum md5 n2]]]
  | .ndarray a => [a.bytes]
  | .sympy s => [encode s]
  | .seq _ xs => messagesList xs ++ (match hashList md5 extend xs with | .ok hs => [seqMsg hs] | _ => [])
  | .dict ks vs => messagesList ks ++ messagesList vs ++ (match hashList md5 extend ks, hashList md5 extend vs with
    | .ok hk, .ok hv => (("k".toList :: hk) ++ ("v".toList :: hv)).map encode ++
        [seqMsg ((("k".toList :: hk) ++ ("v".toList :: hv)).map (hashStr md5))]
    | _, _ => [])
  | .num _ q => [encode (decimal (pyHash q))]
  | .none => [encode []]
  | .other id => match extend id with | some s => [encode s] | none => []

def messagesList : List Arg → List ByteArray
  | [] => []
  | x :: xs => messages x ++ messagesList xs
end

/-- The byte strings hashed for a call. -/
def callMessages (c : Call) : List ByteArray :=
  messagesList md5 extend c.args ++ c.kwargs.flatMap (fun kv => encode kv.1 :: messages md5 extend kv.2) ++
    (match hashList md5 extend c.args, hashKwargs md5 extend c.kwargs with
      | .ok h1, .ok h2 => [encode (join (h1 ++ h2))]
      | _, _ => [])

end

/-! ## Transparency -/

/-- The result up to the type of numbers: a float and an integer of the same value are equal in Python. -/
def value : Res → Res
  | .num _ q => .num true q
  | r => r

/-- The outcome up to the type of numbers. -/
def outValue : Out Res → Out Res
  | .ok r => .ok (value r)
  | o => o

/-- A call in a history: which function, with which arguments, keyword `cache` and settings at that time. -/
structure Request (Fn : Type) where
  fn : Fn
  call : Call
  override : Option Bool
  settings : Settings

/-- Functions that are decorated: name, decorator, and the function itself. -/
structure Library (Fn : Type) where
  name : Fn → Str
  dec : Fn → Decorator
  fn : Fn → Call → Out Res

/-- The outcomes of the requests of a history, starting with the files in `files`. -/
def outcomes {Fn : Type} (md5 : ByteArray → Str) (lib : Library Fn) : List (Request Fn) → Files → List (Out Res)
  | [], _ => []
  | r :: rs, files =>
    let w := wrapper md5 (lib.dec r.fn) (lib.name r.fn) (lib.fn r.fn) r.settings r.override r.call files
    w.1 :: outcomes md5 lib rs w.2

/-- Every call of the history returns what the function itself returns. -/
def Transparent {Fn : Type} (md5 : ByteArray → Str) (lib : Library Fn) (h : List (Request Fn)) : Prop :=
  (outcomes md5 lib h fun _ => none).map outValue = h.map fun r => outValue (lib.fn r.fn r.call)

end Hermipy.Spec
