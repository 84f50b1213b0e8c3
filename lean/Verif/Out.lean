import Init.Internal.Order.Basic
import Init.Control.Lawful.Basic

/-!
# Outcomes

Every modelled function returns an `Out`: a value, an abnormal stop, or divergence.
Undefined behaviour is a distinct outcome, so "returns `ok`" includes memory safety.
Unbounded loops of the code are `partial_fixpoint` definitions whose bottom element is `diverge`.
-/

namespace Hermipy

/-- Ways in which a call can stop without a value. -/
inductive Stop where
  /-- undefined behaviour in the sense of C++ (out-of-range access, unrepresentable conversion) -/
  | ub
  /-- the process is terminated by `exit(code)` -/
  | exit (code : Nat)
  /-- a C++ or Python exception reaches the caller -/
  | throws
deriving DecidableEq, Repr

/-- Result of running a piece of the code. -/
inductive Out (α : Type u) where
  | ok (a : α)
  | stop (s : Stop)
  | diverge
deriving DecidableEq, Repr

namespace Out

/-- Sequencing: the first abnormal outcome wins. -/
def bind {α : Type u} {β : Type v} (x : Out α) (f : α → Out β) : Out β :=
  match x with
  | ok a => f a
  | stop s => stop s
  | diverge => diverge

instance : Monad Out where
  pure := ok
  bind := bind

/-- Undefined behaviour. -/
abbrev ub {α : Type u} : Out α := stop Stop.ub
/-- Process exit. -/
abbrev exit {α : Type u} (n : Nat) : Out α := stop (Stop.exit n)
/-- Exception. -/
abbrev throws {α : Type u} : Out α := stop Stop.throws

@[simp] theorem pure_eq {α : Type u} (a : α) : (pure a : Out α) = ok a := rfl
@[simp] theorem ok_bind {α β : Type u} (a : α) (f : α → Out β) : (ok a >>= f) = f a := rfl
@[simp] theorem stop_bind {α β : Type u} (s : Stop) (f : α → Out β) :
    ((stop s : Out α) >>= f) = stop s := rfl
@[simp] theorem diverge_bind {α β : Type u} (f : α → Out β) :
    ((diverge : Out α) >>= f) = diverge := rfl

instance : LawfulMonad Out := LawfulMonad.mk' _
  (by intro α x; cases x <;> rfl) (by intros; rfl) (by intro α β γ x f g; cases x <;> rfl)

@[simp] theorem map_ok {α β : Type u} (f : α → β) (a : α) : (f <$> (ok a : Out α)) = ok (f a) := rfl

open Lean.Order in
instance {α : Type u} : Lean.Order.PartialOrder (Out α) :=
  inferInstanceAs (Lean.Order.PartialOrder (FlatOrder (Out.diverge : Out α)))

open Lean.Order in
noncomputable instance {α : Type u} : Lean.Order.CCPO (Out α) :=
  inferInstanceAs (Lean.Order.CCPO (FlatOrder (Out.diverge : Out α)))

open Lean.Order in
noncomputable instance : Lean.Order.MonoBind Out where
  bind_mono_left h := by
    cases h
    · exact FlatOrder.rel.bot
    · exact FlatOrder.rel.refl
  bind_mono_right {_ _ a _ _} h := by
    cases a with
    | ok a => exact h a
    | stop s => exact FlatOrder.rel.refl
    | diverge => exact FlatOrder.rel.refl

end Out

/-- `v[i]` on a `std::vector`: undefined behaviour when out of range. -/
def rd {α : Type u} (v : List α) (i : Nat) : Out α :=
  match v[i]? with
  | some a => .ok a
  | none => .ub

/-- `v[i] = a` on a `std::vector`: undefined behaviour when out of range. -/
def wr {α : Type u} (v : List α) (i : Nat) (a : α) : Out (List α) :=
  if i < v.length then .ok (v.set i a) else .ub

theorem rd_of_lt {α : Type u} {v : List α} {i : Nat} (h : i < v.length) : rd v i = .ok v[i] := by
  simp [rd, h]

theorem rd_of_ge {α : Type u} {v : List α} {i : Nat} (h : v.length ≤ i) : rd v i = .ub := by
  simp [rd, h]

theorem wr_of_lt {α : Type u} {v : List α} {i : Nat} {a : α} (h : i < v.length) :
    wr v i a = .ok (v.set i a) := by
  simp [wr, h]

@[simp] theorem rd_zero_cons {α : Type u} (a : α) (v : List α) : rd (a :: v) 0 = .ok a := rfl
@[simp] theorem rd_succ_cons {α : Type u} (a : α) (v : List α) (i : Nat) :
    rd (a :: v) (i + 1) = rd v i := by simp [rd]
@[simp] theorem wr_zero_cons {α : Type u} (a b : α) (v : List α) :
    wr (a :: v) 0 b = .ok (b :: v) := by simp [wr]

/-- `2^32`, the modulus of `u_int`. -/
def u32 : Nat := 4294967296

/-- Conversion of a non-negative integral `double` to `u_int`: undefined if it does not fit. -/
def toU32 (n : Nat) : Out Nat := if n < u32 then .ok n else .ub

/-- Wrapping of unsigned arithmetic. -/
def wrap32 (n : Nat) : Nat := n % u32

end Hermipy
