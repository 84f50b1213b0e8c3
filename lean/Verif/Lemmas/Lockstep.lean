import Verif.Model.Varf
import Mathlib.Data.List.Forall2

/-! # Two runs in lockstep -/

namespace Hermipy

/-- The outcomes are of the same kind, and values are related. -/
def OutRel {β γ : Type} (R : β → γ → Prop) : Out β → Out γ → Prop
  | .ok x, .ok y => R x y
  | .stop s, .stop t => s = t
  | .diverge, .diverge => True
  | _, _ => False

theorem OutRel.bind {β γ β' γ' : Type} {R : β → γ → Prop} {S : β' → γ' → Prop} {x : Out β} {y : Out γ} {f : β → Out β'} {g : γ → Out γ'}
    (h : OutRel R x y) (hfg : ∀ a b, R a b → OutRel S (f a) (g b)) : OutRel S (x >>= f) (y >>= g) := by
  match x, y, h with
  | .ok a, .ok b, h => exact hfg a b h
  | .stop _, .stop _, h => exact h
  | .diverge, .diverge, _ => trivial

theorem OutRel.foldlM {β γ δ : Type} {R : β → γ → Prop} {f : β → δ → Out β} {g : γ → δ → Out γ}
    (hfg : ∀ i s t, R s t → OutRel R (f s i) (g t i)) : ∀ (l : List δ) {s : β} {t : γ}, R s t → OutRel R (l.foldlM f s) (l.foldlM g t)
  | [], _, _, h => h
  | a :: l, s, t, h => by
    rw [List.foldlM_cons, List.foldlM_cons]
    exact (hfg a s t h).bind fun s t h => OutRel.foldlM hfg l h

theorem OutRel.forFrom {β γ : Type} {R : β → γ → Prop} {a b : ℕ} {s : β} {t : γ} {f : ℕ → β → Out β} {g : ℕ → γ → Out γ} (h : R s t)
    (hfg : ∀ i s t, R s t → OutRel R (f i s) (g i t)) : OutRel R (forFrom a b s f) (forFrom a b t g) :=
  OutRel.foldlM (fun i s t h => hfg i s t h) _ h

theorem OutRel.rd {β γ : Type} {R : β → γ → Prop} {l : List β} {l' : List γ} (h : List.Forall₂ R l l') (i : ℕ) :
    OutRel R (rd l i) (rd l' i) := by
  induction h generalizing i with
  | nil => exact rfl
  | cons h _ ih =>
    cases i with
    | zero => exact h
    | succ i => exact ih i

theorem OutRel.wr {β γ : Type} {R : β → γ → Prop} {l : List β} {l' : List γ} (h : List.Forall₂ R l l') (i : ℕ) {v : β} {w : γ}
    (hv : R v w) : OutRel (List.Forall₂ R) (wr l i v) (wr l' i w) := by
  rw [Hermipy.wr, Hermipy.wr, h.length_eq]
  by_cases hi : i < l'.length
  · rw [if_pos hi, if_pos hi]
    change List.Forall₂ R (l.set i v) (l'.set i w)
    clear hi
    induction h generalizing i with
    | nil => exact .nil
    | cons h h' ih =>
      cases i with
      | zero => exact .cons hv h'
      | succ i => exact .cons h (ih i)
  · rw [if_neg hi, if_neg hi]
    exact rfl

/-- Tables with related entries. -/
def CubeRel {β γ : Type} (R : β → γ → Prop) : List (List (List β)) → List (List (List γ)) → Prop :=
  List.Forall₂ (List.Forall₂ (List.Forall₂ R))

theorem OutRel.wr3 {β γ : Type} {R : β → γ → Prop} {c : List (List (List β))} {c' : List (List (List γ))} (h : CubeRel R c c') (k i j : ℕ)
    {v : β} {w : γ} (hv : R v w) : OutRel (CubeRel R) (wr3 c k i j v) (wr3 c' k i j w) :=
  (OutRel.rd h k).bind fun _ _ hM => (OutRel.rd hM i).bind fun _ _ hr => (OutRel.wr hr j hv).bind fun _ _ hr' =>
    (OutRel.wr hM i hr').bind fun _ _ hM' => OutRel.wr h k hM'

theorem CubeRel.zero {β γ : Type} [Zero β] [Zero γ] {R : β → γ → Prop} (h : R 0 0) (n : ℕ) : CubeRel R (zeroCube n) (zeroCube n) := by
  have rep : ∀ {β' γ' : Type} {R' : β' → γ' → Prop} {x : β'} {y : γ'} (_ : R' x y) (m : ℕ), List.Forall₂ R' (List.replicate m x) (List.replicate m y) := by
    intro β' γ' R' x y hxy m
    induction m with
    | zero => exact .nil
    | succ m ih => exact .cons hxy ih
  exact rep (rep (rep h _) _) _

end Hermipy
