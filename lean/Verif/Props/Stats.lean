import Verif.Spec.Stats
import Mathlib.Tactic.Common
import Mathlib.Tactic.Ring

/-! # Property C62: the nesting level of the timing instrumentation -/

namespace Hermipy.Props

open Spec

mutual
theorem runCall_spec : ∀ (c : Call) (st : StatsState), ∃ failed returned,
    RunsCall c (runCall c st).1 failed returned ∧ (runCall c st).2.indent = st.indent + failed ∧
    (∀ k, (runCall c st).2.calls k = st.calls k + returned k)
  | .call key body, st => by
    obtain ⟨failed, returned, h1, h2, h3⟩ :=
      runBody_spec body { st with indent := st.indent + 1, log := st.log ++ [(st.indent, key)] }
    rw [runCall]
    dsimp only at *
    cases hr : (runBody body { st with indent := st.indent + 1, log := st.log ++ [(st.indent, key)] }).1 with
    | true =>
      rw [hr] at h1
      exact ⟨failed + 1, returned, .raises h1, by simp [h2]; omega, by simpa using h3⟩
    | false =>
      rw [hr] at h1
      refine ⟨failed, _, .returns h1, by simp [h2], fun k => ?_⟩
      have := h3 k
      by_cases hk : k = key <;> simp_all <;> omega
theorem runBody_spec : ∀ (b : Body) (st : StatsState), ∃ failed returned,
    RunsBody b (runBody b st).1 failed returned ∧ (runBody b st).2.indent = st.indent + failed ∧
    (∀ k, (runBody b st).2.calls k = st.calls k + returned k)
  | .ret, st => ⟨0, fun _ => 0, .ret, rfl, fun _ => rfl⟩
  | .raise, st => ⟨0, fun _ => 0, .raise, rfl, fun _ => rfl⟩
  | .step c caught rest, st => by
    obtain ⟨failed, returned, h1, h2, h3⟩ := runCall_spec c st
    obtain ⟨failed', returned', h1', h2', h3'⟩ := runBody_spec rest (runCall c st).2
    rw [runBody]
    cases hr : (runCall c st).1 <;> rw [hr] at h1
    · refine ⟨failed + failed', _, .proceed h1 (by simpa [hr] using h1'), ?_, fun k => ?_⟩
      · simp [h2', h2]; omega
      · simp [h3', h3]; omega
    · cases caught
      · exact ⟨failed, returned, by simpa [hr] using .escape h1, by simp [h2], by simpa [hr] using h3⟩
      · refine ⟨failed + failed', _, .catches h1 (by simpa [hr] using h1'), ?_, fun k => ?_⟩
        · simp [h2', h2]; omega
        · simp [h3', h3]; omega
end

/-- The state after the calls of a history. -/
def runHistory (cs : List Call) (st : StatsState) : StatsState := cs.foldl (fun st c => (runCall c st).2) st

/-- After any history of calls, the indentation has grown by the number of calls, nested ones included, that ended with an exception,
and the number of calls recorded for a key is the number of those that returned. -/
theorem C62_indent (cs : List Call) (st : StatsState) : ∃ failed returned, RunsHistory cs failed returned ∧
    (runHistory cs st).indent = st.indent + failed ∧ ∀ k, (runHistory cs st).calls k = st.calls k + returned k := by
  induction cs generalizing st with
  | nil => exact ⟨0, _, .nil, rfl, fun _ => rfl⟩
  | cons c cs ih =>
    obtain ⟨failed, returned, h1, h2, h3⟩ := runCall_spec c st
    obtain ⟨failed', returned', h1', h2', h3'⟩ := ih (runCall c st).2
    refine ⟨_, _, .cons h1 h1', ?_, fun k => ?_⟩
    · change (runHistory cs (runCall c st).2).indent = _
      omega
    · change (runHistory cs (runCall c st).2).calls k = _
      rw [h3', h3]; ring

mutual
theorem runsCall_unique : ∀ (c : Call) {r r' f f' n n'}, RunsCall c r f n → RunsCall c r' f' n' → r = r' ∧ f = f' ∧ n = n'
  | .call key body, r, r', f, f', n, n', h, h' => by
    cases h with
    | returns h =>
      cases h' with
      | returns h' => obtain ⟨_, rfl, rfl⟩ := runsBody_unique body h h'; exact ⟨rfl, rfl, rfl⟩
      | raises h' => exact absurd (runsBody_unique body h h').1 (by simp)
    | raises h =>
      cases h' with
      | returns h' => exact absurd (runsBody_unique body h h').1 (by simp)
      | raises h' => obtain ⟨_, rfl, rfl⟩ := runsBody_unique body h h'; exact ⟨rfl, rfl, rfl⟩
theorem runsBody_unique : ∀ (b : Body) {r r' f f' n n'}, RunsBody b r f n → RunsBody b r' f' n' → r = r' ∧ f = f' ∧ n = n'
  | .ret, r, r', f, f', n, n', h, h' => by cases h; cases h'; exact ⟨rfl, rfl, rfl⟩
  | .raise, r, r', f, f', n, n', h, h' => by cases h; cases h'; exact ⟨rfl, rfl, rfl⟩
  | .step c caught rest, r, r', f, f', n, n', h, h' => by
    cases h with
    | escape h =>
      cases h' with
      | escape h' => obtain ⟨_, rfl, rfl⟩ := runsCall_unique c h h'; exact ⟨rfl, rfl, rfl⟩
      | proceed h' _ => exact absurd (runsCall_unique c h h').1 (by simp)
    | catches h k =>
      cases h' with
      | catches h' k' =>
        obtain ⟨_, rfl, rfl⟩ := runsCall_unique c h h'
        obtain ⟨rfl, rfl, rfl⟩ := runsBody_unique rest k k'
        exact ⟨rfl, rfl, rfl⟩
      | proceed h' _ => exact absurd (runsCall_unique c h h').1 (by simp)
    | proceed h k =>
      cases h' with
      | escape h' => exact absurd (runsCall_unique c h h').1 (by simp)
      | catches h' _ => exact absurd (runsCall_unique c h h').1 (by simp)
      | proceed h' k' =>
        obtain ⟨_, rfl, rfl⟩ := runsCall_unique c h h'
        obtain ⟨rfl, rfl, rfl⟩ := runsBody_unique rest k k'
        exact ⟨rfl, rfl, rfl⟩
end

theorem runsHistory_unique : ∀ (cs : List Call) {f f' n n'}, RunsHistory cs f n → RunsHistory cs f' n' → f = f' ∧ n = n'
  | [], f, f', n, n', h, h' => by cases h; cases h'; exact ⟨rfl, rfl⟩
  | c :: cs, f, f', n, n', h, h' => by
    cases h with
    | cons h k =>
      cases h' with
      | cons h' k' =>
        obtain ⟨_, rfl, rfl⟩ := runsCall_unique c h h'
        obtain ⟨rfl, rfl⟩ := runsHistory_unique cs k k'
        exact ⟨rfl, rfl⟩

/-- C62 (partial: only for histories without exceptions; see `C62_indent_iff`). -/
theorem C62_no_exception_partial (cs : List Call) (st : StatsState) (returned : String → ℕ) (h : RunsHistory cs 0 returned) :
    (runHistory cs st).indent = st.indent := by
  obtain ⟨f, n, h', h2, _⟩ := C62_indent cs st
  obtain ⟨rfl, _⟩ := runsHistory_unique cs h h'
  exact h2

/-- The indentation is restored exactly by the histories in which no decorated call, nested ones included, ends with an exception —
caught or not. -/
theorem C62_indent_iff (cs : List Call) (st : StatsState) :
    (runHistory cs st).indent = st.indent ↔ ∃ returned, RunsHistory cs 0 returned := by
  constructor
  · intro h
    obtain ⟨f, n, h', h2, _⟩ := C62_indent cs st
    have : f = 0 := by omega
    subst this
    exact ⟨n, h'⟩
  · rintro ⟨n, h⟩
    exact C62_no_exception_partial cs st n h

/-- C62 is false: a decorated function whose nested call raises and is caught returns normally, but leaves the indentation one level
deeper; and so does each such call. -/
theorem C62_false (n : ℕ) (st : StatsState) :
    (runHistory (List.replicate n (.call "varf" (.step (.call "solve" .raise) true .ret))) st).indent = st.indent + n := by
  induction n generalizing st with
  | zero => rfl
  | succ n ih =>
    rw [List.replicate_succ]
    rw [runHistory, List.foldl_cons, ← runHistory, ih]
    simp [runCall, runBody]
    omega

mutual
theorem runCall_log : ∀ (c : Call) (st : StatsState) (n : String → ℕ), RunsCall c false 0 n →
    (runCall c st).1 = false ∧ (runCall c st).2.indent = st.indent ∧ (runCall c st).2.log = st.log ++ callLines c st.indent
  | .call key body, st, n, h => by
    cases h with
    | returns h =>
      obtain ⟨h1, h2, h3⟩ := runBody_log body { st with indent := st.indent + 1, log := st.log ++ [(st.indent, key)] } _ h
      rw [runCall]
      simp [h1, h2, h3, callLines]
theorem runBody_log : ∀ (b : Body) (st : StatsState) (n : String → ℕ), RunsBody b false 0 n →
    (runBody b st).1 = false ∧ (runBody b st).2.indent = st.indent ∧ (runBody b st).2.log = st.log ++ bodyLines b st.indent
  | .ret, st, n, h => by simp [runBody, bodyLines]
  | .raise, st, n, h => by cases h
  | .step c caught rest, st, n, h => by
    generalize hz : 0 = z at h
    cases h with
    | catches hc hb =>
      rename_i f _ f' _
      cases hc
      omega
    | proceed hc hb =>
      rename_i f _ f' _
      obtain ⟨rfl, rfl⟩ : f = 0 ∧ f' = 0 := by omega
      obtain ⟨h1, h2, h3⟩ := runCall_log c st _ hc
      obtain ⟨k1, k2, k3⟩ := runBody_log rest (runCall c st).2 _ hb
      rw [runBody]
      simp [h1, k1, k2, k3, h2, h3, bodyLines]
end

/-- In a history in which no decorated call ends with an exception, exactly one line is printed for each call made, callers before
callees, and it is indented by the nesting depth of the call. -/
theorem C62_log (cs : List Call) (st : StatsState) (returned : String → ℕ) (h : RunsHistory cs 0 returned) :
    (runHistory cs st).log = st.log ++ cs.flatMap (callLines · st.indent) := by
  induction cs generalizing st returned with
  | nil => simp [runHistory]
  | cons c cs ih =>
    generalize hz : 0 = z at h
    cases h with
    | cons hc hs =>
      rename_i r f _ f' _
      obtain ⟨rfl, rfl⟩ : f = 0 ∧ f' = 0 := by omega
      cases r with
      | true => cases hc
      | false =>
        obtain ⟨_, h2, h3⟩ := runCall_log c st _ hc
        rw [runHistory, List.foldl_cons, ← runHistory, ih _ _ hs]
        simp [h2, h3]

/-- The lines printed on entry are indented by the depth of the call in the tree as long as no call has failed: a call inside two
others is printed at level two. -/
example (st : StatsState) : (runCall (.call "a" (.step (.call "b" (.step (.call "c" .ret) false .ret)) false
    (.step (.call "d" .ret) false .ret))) st).2.log = st.log ++ [(st.indent, "a"), (st.indent + 1, "b"), (st.indent + 2, "c"),
      (st.indent + 1, "d")] := by
  simp [runCall, runBody]

/-- A history without exceptions, with nesting, and one with. -/
example : ∃ n, RunsHistory [.call "a" (.step (.call "b" .ret) false .ret), .call "a" .ret] 0 n :=
  ⟨_, .cons (.returns (.proceed (.returns .ret) .ret)) (.cons (.returns .ret) .nil)⟩

example : ∃ n, RunsHistory [.call "a" (.step (.call "b" .raise) false .ret), .call "a" .ret] 2 n :=
  ⟨_, .cons (.raises (.escape (.raises .raise))) (.cons (.returns .ret) .nil)⟩

end Hermipy.Props
