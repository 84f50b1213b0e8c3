import Verif.Lemmas.Arith
import Verif.Lemmas.HermiteEval
import Verif.Spec.Converters
import Mathlib.Tactic.Ring

/-! # Conversions from and to numpy -/

namespace Hermipy

open Spec

variable {α : Type}

theorem mapM_ok {β γ : Type} {f : β → Out γ} {g : β → γ} : ∀ {l : List β}, (∀ x ∈ l, f x = .ok (g x)) → l.mapM f = .ok (l.map g)
  | [], _ => rfl
  | x :: l, h => by
    rw [List.mapM_cons, h x (by simp), mapM_ok fun y hy => h y (by simp [hy])]
    rfl

theorem mapM_length {β γ : Type} {f : β → Out γ} : ∀ {l : List β} {r : List γ}, l.mapM f = .ok r → r.length = l.length
  | [], r, h => by
    have h : Out.ok [] = Out.ok r := h
    rw [← Out.ok.inj h]
    rfl
  | x :: l, r, h => by
    rw [List.mapM_cons] at h
    cases hx : f x with
    | ok y =>
      rw [hx, Out.ok_bind] at h
      cases hl : l.mapM f with
      | ok ys =>
        rw [hl, Out.ok_bind] at h
        rw [← Out.ok.inj h]
        simp [mapM_length hl]
      | stop s => rw [hl] at h; simp at h
      | diverge => rw [hl] at h; simp at h
    | stop s => rw [hx] at h; simp at h
    | diverge => rw [hx] at h; simp at h

theorem foldlM_stop {σ τ : Type} {f : σ → τ → Out σ} {s : Stop} (P : σ → Prop) : ∀ (l : List τ) (a : σ), P a →
    (∀ a x, P a → x ∈ l → (∃ a', f a x = .ok a' ∧ P a') ∨ f a x = .stop s) → (∃ x ∈ l, ∀ a, P a → f a x = .stop s) →
    l.foldlM f a = .stop s
  | [], _, _, _, h => by obtain ⟨x, hx, -⟩ := h; simp at hx
  | y :: l, a, ha, hs, ⟨x, hx, hth⟩ => by
    rw [List.foldlM_cons]
    rcases hs a y ha (by simp) with ⟨a', e, ha'⟩ | e
    · rw [e]
      refine foldlM_stop P l a' ha' (fun a x hP hx => hs a x hP (by simp [hx])) ⟨x, ?_, hth⟩
      rcases List.mem_cons.1 hx with rfl | hx
      · rw [hth a ha] at e; simp at e
      · exact hx
    · rw [e]; rfl

theorem strideOf_one : strideOf (8 * 1) = 1 := by decide

theorem strideOf_nat {s : Nat} (h : 8 * s < u32) : strideOf (8 * (s : Int)) = s := by
  rw [strideOf]
  have : ((8 * (s : Int)).emod u32) = 8 * (s : Int) := Int.emod_eq_of_lt (by omega) (by exact_mod_cast h)
  rw [this]
  omega

theorem strideOf_ne {s : Int} (h1 : s ≠ 1) (h2 : -(2 ^ 29 - 1) < s) (h3 : s < 2 ^ 29) : strideOf (8 * s) ≠ 1 := by
  rw [strideOf]
  intro h
  by_cases h0 : 0 ≤ s
  · have : ((8 * s).emod u32) = 8 * s := Int.emod_eq_of_lt (by omega) (by simp only [u32]; omega)
    rw [this] at h
    omega
  · have : ((8 * s).emod u32) = 8 * s + u32 := by
      show (8 * s) % (u32 : Int) = _
      rw [← Int.add_emod_right]
      exact Int.emod_eq_of_lt (by simp only [u32]; omega) (by omega)
    rw [this] at h
    simp only [u32] at h
    omega

theorem checkArray_ok {A : NdArray α} {n m : Nat} {s0 : Int} {f : Nat → Nat → α} (h : Holds A n m s0 1 f) (hn : n < u32)
    (hm : m < u32) : checkArray A = .ok (n, m, strideOf (8 * s0)) := by
  rw [checkArray, h.1, h.2.1]
  dsimp only
  rw [strideOf_one, if_neg (by omega), wrap32, wrap32, Nat.mod_eq_of_lt hn, Nat.mod_eq_of_lt hm]

theorem checkArray_throws {A : NdArray α} {n m : Nat} {s0 s1 : Int} {f : Nat → Nat → α} (h : Holds A n m s0 s1 f) (h1 : s1 ≠ 1)
    (h2 : -(2 ^ 29 - 1) < s1) (h3 : s1 < 2 ^ 29) : checkArray A = .throws := by
  rw [checkArray, h.1, h.2.1]
  dsimp only
  rw [if_pos (strideOf_ne h1 h2 h3)]

/-- What `to_boost_mat` computes. -/
theorem to_boost_mat_gen [Zero α] {A : NdArray α} {n m r : Nat} (hc : checkArray A = .ok (n, m, r)) {g : Nat → Nat → α}
    (hw : n * n + m ≤ u32) (hg : ∀ i j, i < n → j < m → A.base[A.offset + (i * n + j)]? = some (g i j)) :
    ∃ R, to_boost_mat A = .ok R ∧ IsMat R n m g := by
  rw [to_boost_mat, hc]
  simp only [Out.ok_bind]
  refine rect_loop (f := g) (z := (0 : α)) (fun M h => IsMat M n m h) (LawfulMat.construct _ _)
    (fun h hg => LawfulMat.congr h hg) ?_
  intro i j M h hi hj hM _
  have hlt : i * n + j < u32 := by
    have : i * n ≤ n * n := Nat.mul_le_mul_right _ (by omega)
    omega
  rw [wrap32, Nat.mod_eq_of_lt hlt, NdArray.data, rd, hg i j hi hj]
  simp only [Out.ok_bind]
  exact LawfulMat.set hM hi hj (g i j)

theorem to_boost_mat_ub [Zero α] {A : NdArray α} {n m r : Nat} (hc : checkArray A = .ok (n, m, r)) (hw : n * n + m ≤ u32)
    {i j : Nat} (hi : i < n) (hj : j < m) (hg : A.base.length ≤ A.offset + (i * n + j)) : to_boost_mat A = .ub := by
  rw [to_boost_mat, hc]
  simp only [Out.ok_bind]
  have hsz : ∀ (M : BMat α) i j x M', M.data.length = n * m → M.size1 = n → M.size2 = m → MatOps.set M i j x = .ok M' →
      M'.data.length = n * m ∧ M'.size1 = n ∧ M'.size2 = m := by
    intro M i j x M' h0 h1 h2 h
    simp only [MatOps.set, wr] at h
    split_ifs at h
    · simp only [Out.ok_bind] at h
      rw [← Out.ok.inj h]
      exact ⟨by simpa using h0, h1, h2⟩
    · simp at h
  have inner : ∀ i, i < n → ∀ (M : BMat α), (M.data.length = n * m ∧ M.size1 = n ∧ M.size2 = m) → ∀ j, j < m →
      (∃ M', (do
        let x ← A.data (wrap32 (i * n + j))
        MatOps.set M i j x) = .ok M' ∧ M'.data.length = n * m ∧ M'.size1 = n ∧ M'.size2 = m) ∨ (do
        let x ← A.data (wrap32 (i * n + j))
        MatOps.set M i j x) = .ub := by
    intro i hi M hM j hj
    rw [NdArray.data]
    rcases lt_or_ge (A.offset + wrap32 (i * n + j)) A.base.length with h | h
    · rw [rd_of_lt h]
      simp only [Out.ok_bind]
      have hlt : i * m + j < n * m := by
        have : (i + 1) * m ≤ n * m := Nat.mul_le_mul_right _ (by omega)
        rw [Nat.succ_mul] at this
        omega
      have : ∃ M', MatOps.set M i j (A.base[A.offset + wrap32 (i * n + j)]) = .ok M' := by
        simp only [MatOps.set]
        rw [if_pos (by omega), wr_of_lt (by rw [hM.2.2, hM.1]; exact hlt)]
        exact ⟨_, rfl⟩
      obtain ⟨M', e⟩ := this
      exact Or.inl ⟨M', e, hsz M i j _ M' hM.1 hM.2.1 hM.2.2 e⟩
    · rw [rd_of_ge h]; exact Or.inr rfl
  have hlt : i * n + j < u32 := by
    have : i * n ≤ n * n := Nat.mul_le_mul_right _ (by omega)
    omega
  rw [forRange]
  refine foldlM_stop (fun M : BMat α => M.data.length = n * m ∧ M.size1 = n ∧ M.size2 = m) _ _
    ⟨by simp [MatOps.construct], rfl, rfl⟩ ?_ ⟨i, by simpa using hi, ?_⟩
  · intro M a hM ha
    rw [List.mem_range] at ha
    have key : ∀ (l : List Nat), (∀ b ∈ l, b < m) → ∀ M : BMat α, (M.data.length = n * m ∧ M.size1 = n ∧ M.size2 = m) →
        (∃ M', l.foldlM (fun M j => do
          let x ← A.data (wrap32 (a * n + j))
          MatOps.set M a j x) M = .ok M' ∧ M'.data.length = n * m ∧ M'.size1 = n ∧ M'.size2 = m) ∨
        l.foldlM (fun M j => do
          let x ← A.data (wrap32 (a * n + j))
          MatOps.set M a j x) M = .ub := by
      intro l
      induction l with
      | nil => exact fun _ M hM => Or.inl ⟨M, rfl, hM⟩
      | cons b l ih =>
        intro hl M hM
        rw [List.foldlM_cons]
        rcases inner a ha M hM b (hl b (by simp)) with ⟨M', e, hM'⟩ | e
        · rw [e]
          exact ih (fun c hc => hl c (by simp [hc])) M' hM'
        · rw [e]; exact Or.inr rfl
    rw [forRange]
    exact key _ (fun b hb => by simpa using hb) M hM
  · intro M hM
    rw [forRange]
    refine foldlM_stop (fun M : BMat α => M.data.length = n * m ∧ M.size1 = n ∧ M.size2 = m) _ _ hM
      (fun M b hM hb => inner i hi M hM b (by simpa using hb)) ⟨j, by simpa using hj, fun M _ => ?_⟩
    rw [wrap32, Nat.mod_eq_of_lt hlt, NdArray.data, rd_of_ge hg]
    rfl

/-- What `to_bmat` computes. -/
theorem to_bmat_gen [Zero α] {A : NdArray α} {n m r : Nat} (hc : checkArray A = .ok (n, m, r)) {g : Nat → Nat → α}
    (hg : ∀ i j, i < n → j < m → A.base[A.offset + (i * m + j)]? = some (g i j)) :
    ∃ R, to_bmat A = .ok R ∧ IsMat R n m g := by
  have hd : ∀ k ∈ List.range (n * m), A.data k = .ok (g (k / m) (k % m)) := by
    intro k hk
    rw [List.mem_range] at hk
    have hm : 0 < m := by
      rcases Nat.eq_zero_or_pos m with h | h
      · rw [h] at hk; omega
      · exact h
    have := hg (k / m) (k % m) (Nat.div_lt_of_lt_mul (by rw [Nat.mul_comm]; exact hk)) (Nat.mod_lt _ hm)
    rw [Nat.mul_comm, Nat.div_add_mod] at this
    rw [NdArray.data, rd, this]
  refine ⟨_, by rw [to_bmat, hc]; simp only [Out.ok_bind]; rw [mapM_ok hd]; rfl, rfl, rfl, by simp, fun i j hi hj => ?_⟩
  have hlt : i * m + j < n * m := by
    have : (i + 1) * m ≤ n * m := Nat.mul_le_mul_right _ (by omega)
    rw [Nat.succ_mul] at this
    omega
  rw [List.getElem?_map, List.getElem?_range hlt]
  simp only [Option.map_some, Option.some.injEq]
  rw [Nat.mul_comm, Nat.mul_add_div (by omega), Nat.div_eq_of_lt hj, Nat.add_zero, Nat.mul_add_mod, Nat.mod_eq_of_lt hj]

/-- What `to_mat` computes: rows as long as the stride. -/
theorem to_mat_gen {A : NdArray α} {n m r : Nat} (hc : checkArray A = .ok (n, m, r)) {g : Nat → Nat → α}
    (hn : n < u32) (hw : n * r < u32)
    (hg : ∀ i j, i < n → j < r → A.base[A.offset + (i * r + j)]? = some (g i j)) :
    ∃ R, to_mat A = .ok R ∧ IsMat R n r g := by
  rw [to_mat, hc]
  simp only [Out.ok_bind]
  obtain ⟨R, e, hR⟩ := forRange_inv (n := n) (acc := List.replicate n ([] : List α))
    (body := fun i result => do
      let row ← A.slice (wrap32 (i * r)) (wrap32 (wrap32 (i + 1) * r))
      wr result i row)
    (fun k R => R.length = n ∧ ∀ i row, i < k → R[i]? = some row → row = (List.range r).map (g i))
    ⟨by simp, fun i row hi => by omega⟩
    (by
      rintro i R hi ⟨hl, hR⟩
      have hle : (i + 1) * r ≤ n * r := Nat.mul_le_mul_right _ (by omega)
      have h1 : wrap32 (i * r) = i * r := Nat.mod_eq_of_lt (by rw [Nat.succ_mul] at hle; omega)
      have h2 : wrap32 (wrap32 (i + 1) * r) = (i + 1) * r := by
        rw [wrap32, wrap32, Nat.mod_eq_of_lt (by omega : i + 1 < u32), Nat.mod_eq_of_lt (by omega)]
      have hs : A.slice (wrap32 (i * r)) (wrap32 (wrap32 (i + 1) * r)) = .ok ((List.range r).map (g i)) := by
        rw [h1, h2, NdArray.slice, if_neg (by rw [Nat.succ_mul]; omega), Nat.succ_mul, Nat.add_sub_cancel_left]
        have hd : ∀ k ∈ List.range' (i * r) r, A.data k = .ok (g i (k - i * r)) := by
          intro k hk
          rw [List.mem_range'_1] at hk
          have := hg i (k - i * r) hi (by omega)
          rw [show i * r + (k - i * r) = k by omega] at this
          rw [NdArray.data, rd, this]
        rw [mapM_ok hd]
        congr 1
        apply List.ext_getElem
        · simp
        · intro k hk hk'
          simp
      simp only [hs, Out.ok_bind]
      rw [wr_of_lt (by omega)]
      refine ⟨_, rfl, by simpa using hl, fun k row hk hrow => ?_⟩
      rw [List.getElem?_set] at hrow
      by_cases hik : i = k
      · subst hik
        rw [if_pos rfl, if_pos (by omega)] at hrow
        exact (Option.some.inj hrow).symm
      · rw [if_neg hik] at hrow
        exact hR k row (by omega) hrow)
  refine ⟨R, e, hR.1, fun row hrow => ?_, fun i j row x hrow hx => ?_⟩
  · obtain ⟨i, hi, rfl⟩ := List.mem_iff_getElem.1 hrow
    rw [hR.2 i _ (by rw [← hR.1]; exact hi) (List.getElem?_eq_getElem hi)]
    simp
  · have hi := (List.getElem?_eq_some_iff.1 hrow).1
    rw [hR.2 i _ (by rw [← hR.1]; exact hi) hrow] at hx
    rw [List.getElem?_map] at hx
    obtain ⟨k, hk, rfl⟩ := Option.map_eq_some_iff.1 hx
    obtain ⟨hk1, hk2⟩ := List.getElem?_eq_some_iff.1 hk
    rw [List.getElem_range] at hk2
    rw [hk2]

/-- Contiguous arrays. -/
theorem holds_fresh {n m : Nat} {data : List α} {f : Nat → Nat → α}
    (h : ∀ i j, i < n → j < m → data[i * m + j]? = some (f i j)) : Holds (freshArray n m data) n m m 1 f :=
  ⟨rfl, rfl, fun i j hi hj => ⟨i * m + j, by simp [freshArray], h i j hi hj⟩⟩

theorem to_numpy_boost_ok {M : BMat α} {n m : Nat} {f : Nat → Nat → α} (h : IsMat M n m f) :
    ∃ A, to_numpy_boost M = .ok A ∧ Holds A n m m 1 f ∧ A.offset = 0 ∧ A.base.length = n * m := by
  obtain ⟨h1, h2, h3, h4⟩ := h
  refine ⟨freshArray n m M.data, ?_, holds_fresh h4, rfl, h3⟩
  rw [to_numpy_boost, h1, h2]
  cases hM : M.data with
  | nil =>
    rw [hM] at h3
    rw [← h3]
    rfl
  | cons d t =>
    rw [← hM]
    have hd : ∀ k ∈ List.range (n * m), rd M.data k = .ok (M.data.getD k d) := by
      intro k hk
      have : k < M.data.length := by rw [h3]; exact List.mem_range.1 hk
      rw [rd_of_lt this]; simp [this]
    rw [mapM_ok hd]
    have : (List.range (n * m)).map (fun k => M.data.getD k d) = M.data := by
      apply List.ext_getElem
      · simp [h3]
      · intro k hk hk'; simp [hk']
    rw [this]
    rfl

theorem flatten_get {β : Type} {m : Nat} : ∀ {l : List (List β)} {i j : Nat} {r : List β}, (∀ r ∈ l, r.length = m) → l[i]? = some r →
    j < m → l.flatten[i * m + j]? = r[j]?
  | [], i, j, r, _, h, _ => by simp at h
  | a :: l, 0, j, r, hl, h, hj => by
    have : a = r := by simpa using h
    subst this
    have ha := hl a (by simp)
    rw [List.flatten_cons, Nat.zero_mul, Nat.zero_add, List.getElem?_append_left (by omega)]
  | a :: l, i + 1, j, r, hl, h, hj => by
    have ha := hl a (by simp)
    rw [List.flatten_cons, List.getElem?_append_right (by rw [Nat.succ_mul]; omega),
      show (i + 1) * m + j - a.length = i * m + j by rw [Nat.succ_mul]; omega]
    exact flatten_get (fun r hr => hl r (by simp [hr])) (by simpa using h) hj

theorem to_numpy_mat_ok [Zero α] {M : DMat α} {n m : Nat} {f : Nat → Nat → α} (hn : 1 ≤ n) (h : IsMat M n m f) :
    ∃ A, to_numpy_mat M = .ok A ∧ Holds A n m m 1 f ∧ A.offset = 0 ∧ A.base.length = n * m := by
  obtain ⟨h1, h2, h3⟩ := h
  have h0 : 0 < M.length := by omega
  have hr0 := h2 _ (List.getElem_mem h0)
  have hrow : ∀ i ∈ List.range M.length, (do
      let r ← rd M i
      (List.range m).mapM fun j => rd r j) = .ok (M.getD i []) := by
    intro i hi
    rw [List.mem_range] at hi
    rw [rd_of_lt hi]
    simp only [Out.ok_bind]
    have hl := h2 _ (List.getElem_mem hi)
    have hg : M.getD i [] = M[i] := by simp [hi]
    rw [hg]
    have hd : ∀ j ∈ List.range m, rd M[i] j = .ok (M[i].getD j 0) := by
      intro j hj
      have : j < M[i].length := by rw [hl]; exact List.mem_range.1 hj
      rw [rd_of_lt this]; simp [this]
    rw [mapM_ok hd]
    congr 1
    apply List.ext_getElem
    · simp [hl]
    · intro k hk hk'; simp [hk']
  refine ⟨freshArray n m M.flatten, ?_, holds_fresh fun i j hi hj => ?_, rfl, ?_⟩
  · rw [to_numpy_mat, rd_of_lt h0]
    simp only [Out.ok_bind]
    rw [hr0, mapM_ok hrow, h1]
    have : (List.range n).map (fun i => M.getD i []) = M := by
      apply List.ext_getElem
      · simp [h1]
      · intro k hk hk'; simp [hk']
    rw [this]
    rfl
  · have hi' : i < M.length := by omega
    have hj' : j < M[i].length := by rw [h2 _ (List.getElem_mem hi')]; exact hj
    rw [flatten_get h2 (List.getElem?_eq_getElem hi') hj, List.getElem?_eq_getElem hj',
      h3 i j _ _ (List.getElem?_eq_getElem hi') (List.getElem?_eq_getElem hj')]
  · show M.flatten.length = n * m
    rw [List.length_flatten, ← h1]
    clear hrow hr0 h0 h3 h1
    induction M with
    | nil => simp
    | cons a M ih =>
      rw [List.map_cons, List.sum_cons, ih (fun r hr => h2 r (by simp [hr])), h2 a (by simp), List.length_cons, Nat.succ_mul]
      omega

end Hermipy
