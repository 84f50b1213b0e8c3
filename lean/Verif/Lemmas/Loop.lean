import Verif.Model.Matrix
import Verif.Lemmas.Enum

/-! # Loop invariants -/

namespace Hermipy

variable {σ τ : Type}

theorem foldlM_inv {f : σ → τ → Out σ} (P : Nat → σ → Prop) (L : List τ) (a : σ) (h0 : P 0 a)
    (hs : ∀ i x a, L[i]? = some x → P i a → ∃ a', f a x = .ok a' ∧ P (i + 1) a') :
    ∃ a', L.foldlM f a = .ok a' ∧ P L.length a' := by
  induction L generalizing a P with
  | nil => exact ⟨a, rfl, h0⟩
  | cons x L ih =>
    obtain ⟨a', e, h1⟩ := hs 0 x a rfl h0
    obtain ⟨a'', e', h2⟩ := ih (fun i => P (i + 1)) a' h1 (fun i y b hy hb => hs (i + 1) y b hy hb)
    exact ⟨a'', by rw [List.foldlM_cons, e]; exact e', h2⟩

theorem forRange_inv {n : Nat} {acc : σ} {body : Nat → σ → Out σ} (P : Nat → σ → Prop) (h0 : P 0 acc)
    (hs : ∀ i a, i < n → P i a → ∃ a', body i a = .ok a' ∧ P (i + 1) a') :
    ∃ a', forRange n acc body = .ok a' ∧ P n a' := by
  have := foldlM_inv (f := fun a i => body i a) P (List.range n) acc h0 (by
    intro i x a hx ha
    rw [List.getElem?_eq_some_iff] at hx
    obtain ⟨hi, hx⟩ := hx
    simp only [List.getElem_range] at hx
    subst hx
    exact hs i a (by simpa using hi) ha)
  simpa [forRange] using this

theorem iterLoopS_full {it : Iter} (h : it.full = true) (i : Nat) (acc : σ) (body : Nat → IVec → σ → Out σ) :
    iterLoopS it i acc body = .ok (it, acc) := by
  rw [iterLoopS, if_pos h]

theorem iterLoopS_from {body : Nat → IVec → σ → Out σ} (P : Nat → σ → Prop) {d : Nat} :
    ∀ (n : Nat) (it : Iter) (acc : σ), (∀ m ∈ it.list, m.length = d) → it.full = false → it.index_list + n + 1 = it.list.length →
      it.list[it.index_list]? = some it.multi_index → P it.index_list acc →
      (∀ i m a, it.list[i]? = some m → P i a → ∃ a', body i m a = .ok a' ∧ P (i + 1) a') →
      ∃ it' a', iterLoopS it it.index_list acc body = .ok (it', a') ∧ it'.reset = it.reset ∧ P it.list.length a' := by
  intro n
  induction n with
  | zero =>
    intro it acc hd hf hn hm hP hs
    obtain ⟨a', e, hP'⟩ := hs _ _ _ hm hP
    refine ⟨{ it with full := true }, a', ?_, by simp [Iter.reset], by rw [← hn]; exact hP'⟩
    rw [iterLoopS, if_neg (by simp [hf]), e]
    simp only [Out.ok_bind, Iter.increment]
    rw [if_pos (by omega)]
    simp only [Out.ok_bind]
    exact iterLoopS_full rfl _ _ _
  | succ n ih =>
    intro it acc hd hf hn hm hP hs
    obtain ⟨a', e, hP'⟩ := hs _ _ _ hm hP
    have hlt : it.index_list + 1 < it.list.length := by omega
    have := ih { it with index_list := it.index_list + 1, multi_index := it.list[it.index_list + 1] } a' hd hf
      (by simp only; omega) (by simp [hlt]) hP' hs
    obtain ⟨it'', a'', e', hre, hP''⟩ := this
    refine ⟨it'', a'', ?_, hre.trans (by
      simp [Iter.reset, hd _ (List.getElem_mem hlt), hd _ (List.mem_of_getElem? hm)]), hP''⟩
    rw [iterLoopS, if_neg (by simp [hf]), e]
    simp only [Out.ok_bind, Iter.increment]
    rw [if_neg (by omega), rd_of_lt hlt]
    simp only [Out.ok_bind]
    exact e'

theorem freshIter_reset (dim : Nat) (L : List IVec) : (freshIter dim L).reset = freshIter dim L := by
  simp [freshIter, Iter.reset]

/-- Invariant rule for a loop over a constructed iterator, which can be reset after the loop. -/
theorem IterOk.loopS {s : IndexSet} {dim degree : Nat} {L : List IVec} (h : IterOk s dim degree L) {acc : σ}
    {body : Nat → IVec → σ → Out σ} (P : Nat → σ → Prop) (h0 : P 0 acc)
    (hs : ∀ i m a, L[i]? = some m → P i a → ∃ a', body i m a = .ok a' ∧ P (i + 1) a') :
    ∃ it' a', iterLoopS (freshIter dim L) 0 acc body = .ok (it', a') ∧ it'.reset = freshIter dim L ∧ P L.length a' := by
  obtain ⟨t, ht⟩ := h.runs.head
  have := iterLoopS_from P (L.length - 1) (freshIter dim L) acc
    (fun m hm => inSet_length ((h.mem m).1 hm)) rfl
    (by have : 0 < L.length := by rw [ht]; simp
        simp only [freshIter]; omega)
    (by simp only [freshIter]; rw [ht]; rfl) h0 hs
  rwa [freshIter_reset] at this

/-- Invariant rule for a loop over a constructed iterator. -/
theorem IterOk.loop {s : IndexSet} {dim degree : Nat} {L : List IVec} (h : IterOk s dim degree L) {acc : σ}
    {body : Nat → IVec → σ → Out σ} (P : Nat → σ → Prop) (h0 : P 0 acc)
    (hs : ∀ i m a, L[i]? = some m → P i a → ∃ a', body i m a = .ok a' ∧ P (i + 1) a') :
    ∃ a', iterLoop (freshIter dim L) 0 acc body = .ok a' ∧ P L.length a' := by
  obtain ⟨it', a', e, -, hP⟩ := h.loopS P h0 hs
  exact ⟨a', by rw [iterLoop, e]; rfl, hP⟩

end Hermipy
