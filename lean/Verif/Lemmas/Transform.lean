import Verif.Lemmas.HermiteEval
import Verif.Lemmas.Grid
import Verif.Lemmas.Index
import Verif.Lemmas.Usable
import Mathlib.Algebra.BigOperators.Intervals
import Mathlib.Algebra.BigOperators.Ring.Finset

/-! # The transform as a sum over the grid -/

namespace Hermipy

open Spec

/-! ## Counting loops over iterators -/

/-- The iterator `it` stands at position `j` of the list `L`, or is exhausted. -/
structure ItAt (L : List IVec) (dim j : Nat) (it : Iter) : Prop where
  reset : it.reset = freshIter dim L
  list : it.list = L
  pos : ∀ m, L[j]? = some m → it.multi_index = m ∧ it.index_list = j

theorem IterOk.countLoop {σ : Type} {s : IndexSet} {dim degree : Nat} {L : List IVec} (h : IterOk s dim degree L) {acc : σ}
    {body : Nat → IVec → σ → Out σ} (P : Nat → σ → Prop) (h0 : P 0 acc)
    (hs : ∀ i m a, L[i]? = some m → P i a → ∃ a', body i m a = .ok a' ∧ P (i + 1) a') :
    ∃ it' a', countLoop L.length (freshIter dim L) acc body = .ok (it', a') ∧ it'.reset = freshIter dim L ∧ P L.length a' := by
  obtain ⟨t, ht⟩ := h.runs.head
  obtain ⟨⟨it, a⟩, e, hi, hP⟩ := forRange_inv (n := L.length) (acc := (freshIter dim L, acc))
    (body := fun j st => do
      let acc ← body j st.1.multi_index st.2
      let it ← st.1.increment
      .ok (it, acc))
    (fun j st => ItAt L dim j st.1 ∧ P j st.2)
    ⟨⟨freshIter_reset _ _, rfl, by
      intro m hm
      rw [ht] at hm
      simp only [List.getElem?_cons_zero, Option.some.injEq] at hm
      subst hm
      exact ⟨rfl, rfl⟩⟩, h0⟩
    (by
      rintro j ⟨it, a⟩ hj ⟨hi, hP⟩
      simp only at hi hP
      have hm := List.getElem?_eq_getElem hj
      obtain ⟨hm1, hm2⟩ := hi.pos _ hm
      obtain ⟨a', e, hP'⟩ := hs j _ a hm hP
      simp only [hm1, e, Out.ok_bind]
      have hlen : ∀ (i : Nat) (hi : i < L.length), (L[i]).length = dim := fun i hi =>
        inSet_length ((h.mem _).1 (List.getElem_mem hi))
      have hcur : it.multi_index.length = dim := by rw [hm1]; exact hlen j hj
      have hre := hi.reset
      by_cases hlast : j + 1 = L.length
      · refine ⟨({ it with full := true }, a'), ?_, ⟨?_, hi.list, ?_⟩, hP'⟩
        · rw [Iter.increment, if_pos (by rw [hi.list, hm2]; omega)]
          rfl
        · simpa [Iter.reset] using hre
        · intro m hm
          rw [List.getElem?_eq_none (by omega)] at hm
          simp at hm
      · have hj1 : j + 1 < L.length := by omega
        refine ⟨({ it with index_list := j + 1, multi_index := L[j + 1] }, a'), ?_, ⟨?_, hi.list, ?_⟩, hP'⟩
        · rw [Iter.increment, if_neg (by rw [hi.list, hm2]; omega), hi.list, hm2, rd_of_lt hj1]
          simp only [Out.ok_bind]
        · rw [← hre, Iter.reset, Iter.reset]
          simp only [Iter.mk.injEq, true_and, and_true]
          rw [List.map_const', List.map_const', hlen _ hj1, hcur]
        · intro m hm
          rw [List.getElem?_eq_getElem hj1] at hm
          exact ⟨Option.some.inj hm, rfl⟩)
  exact ⟨it, a, e, hi.reset, hP⟩

/-- The grid iterator stands at position `j` of the box, or is exhausted. -/
def GridAt (ub : IVec) (j : Nat) (g : GridIter) : Prop :=
  (boxList ub).drop j = [] ∨
    ∃ m, g = ⟨ub, m, false⟩ ∧ List.Forall₂ (· < ·) m ub ∧ (boxList ub).drop j = fromBox ub m

theorem GridAt.step {ub : IVec} (hne : ub ≠ []) (hu : ∀ b ∈ ub, 1 ≤ b ∧ b < u32) {j : Nat} {g : GridIter} (h : GridAt ub j g)
    {m : IVec} (hm : (boxList ub)[j]? = some m) : g.multi_index = m ∧ ∃ g', g.increment = .ok g' ∧ GridAt ub (j + 1) g' := by
  have hj := (List.getElem?_eq_some_iff.1 hm).1
  have hdrop : (boxList ub).drop j = m :: (boxList ub).drop (j + 1) := by
    rw [List.drop_eq_getElem_cons hj, (List.getElem?_eq_some_iff.1 hm).2]
  rcases h with h | ⟨m', rfl, hm', e⟩
  · rw [hdrop] at h
    exact absurd h (by simp)
  · rw [hdrop, fromBox_next (fun b hb => (hu b hb).1) hm'] at e
    obtain ⟨rfl, e⟩ := List.cons.inj e
    refine ⟨rfl, ?_⟩
    have hinc := grid_increment hne hu hm'
    cases hn : nxt ub m with
    | some m2 =>
      rw [hn] at hinc e
      exact ⟨_, hinc, Or.inr ⟨m2, rfl, nxt_mem (fun b hb => (hu b hb).1) hm' hn, e⟩⟩
    | none =>
      rw [hn] at hinc e
      obtain ⟨z, hz⟩ := hinc
      exact ⟨_, hz, Or.inl e⟩

theorem gridLoop_inv {σ : Type} {ub : IVec} (hne : ub ≠ []) (hu : ∀ b ∈ ub, 1 ≤ b ∧ b < u32) {acc : σ}
    {body : Nat → IVec → σ → Out σ} (P : Nat → σ → Prop) (h0 : P 0 acc)
    (hs : ∀ i m a, (boxList ub)[i]? = some m → P i a → ∃ a', body i m a = .ok a' ∧ P (i + 1) a') :
    ∃ g a', gridLoop (boxList ub).length (mkGrid ub) acc body = .ok (g, a') ∧ P (boxList ub).length a' := by
  obtain ⟨⟨g, a⟩, e, -, hP⟩ := forRange_inv (n := (boxList ub).length) (acc := (mkGrid ub, acc))
    (body := fun j st => do
      let acc ← body j st.1.multi_index st.2
      let g ← st.1.increment
      .ok (g, acc))
    (fun j st => GridAt ub j st.1 ∧ P j st.2)
    ⟨Or.inr ⟨_, rfl, forall₂_zeros (fun b hb => (hu b hb).1), by
      rw [List.drop_zero, fromBox_zeros (fun b hb => (hu b hb).1)]⟩, h0⟩
    (by
      rintro j ⟨g, a⟩ hj ⟨hg, hP⟩
      simp only at hg hP
      have hm := List.getElem?_eq_getElem hj
      obtain ⟨h1, g', e2, hg'⟩ := hg.step hne hu hm
      obtain ⟨a', e, hP'⟩ := hs j _ a hm hP
      simp only [h1, e, e2, Out.ok_bind]
      exact ⟨_, rfl, hg', hP'⟩)
  exact ⟨g, a, e, hP⟩

/-! ## Points of the grid -/

theorem boxList_eq (bs : IVec) : boxList bs = cartesian (bs.map List.range) := by
  induction bs with
  | nil => rfl
  | cons b bs ih => simp [boxList, cartesian, ih]

/-- The entries of the lists `ls` selected by the indices `p`. -/
def pick {β : Type} (d : β) (ls : List (List β)) (p : IVec) : List β := List.zipWith (fun l i => l.getD i d) ls p

theorem range_map_getD {β : Type} (d : β) (l : List β) : (List.range l.length).map (fun i => l.getD i d) = l := by
  apply List.ext_getElem
  · simp
  · intro i h1 h2
    simp [h2]

theorem cartesian_pick {β : Type} (d : β) : ∀ ls : List (List β),
    cartesian ls = (boxList (ls.map List.length)).map (pick d ls)
  | [] => rfl
  | l :: ls => by
    rw [cartesian, cartesian_pick d ls, List.map_cons, boxList, List.map_flatMap]
    conv_lhs => rw [← range_map_getD d l, List.flatMap_map]
    congr 1
    funext a
    simp [pick, Function.comp_def]

theorem pick_getD {β : Type} (d : β) : ∀ {ls : List (List β)} {p : IVec} {k : Nat}, p.length = ls.length → k < ls.length →
    (pick d ls p).getD k d = (ls.getD k []).getD (p.getD k 0) d
  | [], _, _, _, h => by simp at h
  | _ :: _, [], _, h, _ => by simp at h
  | l :: ls, a :: p, 0, _, _ => by simp [pick]
  | l :: ls, a :: p, k + 1, h, hk => by
    have := pick_getD d (ls := ls) (p := p) (k := k) (by simpa using h) (by simpa using hk)
    simpa [pick] using this

theorem length_cartesian {β : Type} : ∀ ls : List (List β), (cartesian ls).length = (ls.map List.length).prod
  | [] => rfl
  | l :: ls => by
    rw [cartesian, List.length_flatMap]
    simp [length_cartesian ls]

theorem mem_boxList_getD {bs m : IVec} (h : List.Forall₂ (· < ·) m bs) {k : Nat} (hk : k < bs.length) :
    m.getD k 0 < bs.getD k 0 := by
  have hl := h.length_eq
  have := h.get (i := k) (by omega) hk
  simpa [hk, show k < m.length by omega] using this

theorem forRange_prod {n : Nat} {body : Nat → ℝ → Out ℝ} {g : Nat → ℝ} (h : ∀ k < n, ∀ v, body k v = .ok (v * g k)) :
    forRange n (1 : ℝ) body = .ok (∏ k ∈ Finset.range n, g k) := by
  obtain ⟨v, e, hv⟩ := forRange_inv (n := n) (acc := (1 : ℝ)) (body := body)
    (fun i v => v = ∏ k ∈ Finset.range i, g k) (by simp)
    (by
      intro i v hi hv
      refine ⟨_, h i hi v, ?_⟩
      rw [Finset.prod_range_succ, hv])
  rw [e, hv]

theorem rd_getD {β : Type} {v : List β} {i : Nat} (d : β) (h : i < v.length) : rd v i = .ok (v.getD i d) := by
  rw [rd_of_lt h]
  simp [h]

theorem weightAt_ok {weights : List (List ℝ)} {n_points p : IVec} (hw : weights.map List.length = n_points)
    (hp : List.Forall₂ (· < ·) p n_points) : weightAt weights.length weights p = .ok (pick 0 weights p).prod := by
  have hlen : n_points.length = weights.length := by rw [← hw]; simp
  have hpl : p.length = weights.length := by rw [hp.length_eq, hlen]
  rw [weightAt, forRange_prod (g := fun k => (pick 0 weights p).getD k 0)]
  · congr 1
    have : (pick 0 weights p).length = weights.length := by simp [pick, hpl]
    rw [← this, Finset.prod_range]
    rw [← List.prod_ofFn]
    congr 1
    apply List.ext_getElem
    · simp
    · intro i h1 h2
      simp [h2]
  · intro k hk v
    have h1 := mem_boxList_getD hp (k := k) (by omega)
    have h2 : (weights.getD k []).length = n_points.getD k 0 := by
      rw [← hw]; simp [hk]
    rw [rd_getD [] hk, rd_getD 0 (by omega)]
    simp only [Out.ok_bind]
    rw [rd_getD 0 (by omega)]
    simp only [Out.ok_bind]
    rw [pick_getD 0 hpl hk]

theorem valAt_ok {nodes : List (List ℝ)} {n_points p m : IVec} {fourier : List Nat} {degree : Nat}
    (hn : nodes.map List.length = n_points) (hf : fourier.length = nodes.length) (hp : List.Forall₂ (· < ·) p n_points)
    (hml : m.length = nodes.length) (hm : ∀ x ∈ m, x ≤ degree) :
    valAt nodes.length (List.zipWith (fun n f => n.map fun x => table (degree + 1) (fun i => phi f i x)) nodes fourier) p m =
      .ok (basis nodes.length fourier m (pick 0 nodes p)) := by
  have hlen : n_points.length = nodes.length := by rw [← hn]; simp
  have hpl : p.length = nodes.length := by rw [hp.length_eq, hlen]
  rw [valAt, forRange_prod (g := fun k => phi (fourier.getD k 0) (m.getD k 0) ((pick 0 nodes p).getD k 0))]
  · rfl
  · intro k hk v
    have h1 := mem_boxList_getD hp (k := k) (by omega)
    have h2 : (nodes.getD k []).length = n_points.getD k 0 := by
      rw [← hn]; simp [hk]
    have h3 : p.getD k 0 < (nodes.getD k []).length := by omega
    rw [rd_getD [] (by simp; omega), rd_getD 0 (by omega)]
    simp only [Out.ok_bind]
    have e : (List.zipWith (fun n f => n.map fun x => table (degree + 1) (fun i => phi f i x)) nodes fourier).getD k [] =
        (nodes.getD k []).map fun x => table (degree + 1) (fun i => phi (fourier.getD k 0) i x) := by
      simp [hk, show k < fourier.length by omega]
    rw [e, rd_getD [] (by simpa using h3), rd_getD 0 (by omega)]
    simp only [Out.ok_bind]
    have e2 : ((nodes.getD k []).map fun x => table (degree + 1) (fun i => phi (fourier.getD k 0) i x)).getD (p.getD k 0) [] =
        table (degree + 1) (fun i => phi (fourier.getD k 0) i ((nodes.getD k []).getD (p.getD k 0) 0)) := by
      obtain ⟨l, hl⟩ : ∃ l, l = nodes.getD k [] := ⟨_, rfl⟩
      obtain ⟨q, hq⟩ : ∃ q, q = p.getD k 0 := ⟨_, rfl⟩
      rw [← hl, ← hq] at h3 ⊢
      simp [h3]
    have h4 : m.getD k 0 ≤ degree := by
      have hkm : k < m.length := by omega
      simpa [hkm] using hm _ (List.getElem_mem hkm)
    rw [e2, rd_table (by omega), pick_getD 0 hpl hk]
    rfl

/-- `n_points_tot` when it fits. -/
theorem foldl_wrap : ∀ (ns : List Nat) (t : Nat), (∀ n ∈ ns, 1 ≤ n) → t * ns.prod < u32 →
    ns.foldl (fun t n => wrap32 (t * n)) t = t * ns.prod
  | [], t, _, _ => by simp
  | n :: ns, t, h1, h => by
    have hp : 1 ≤ ns.prod := Nat.pos_of_ne_zero (List.prod_ne_zero (fun h0 => by have := h1 0 (by simp [h0]); omega))
    rw [List.prod_cons, ← Nat.mul_assoc] at h
    have hlt : t * n < u32 := lt_of_le_of_lt (Nat.le_mul_of_pos_right _ hp) h
    rw [List.foldl_cons, wrap32, Nat.mod_eq_of_lt hlt, foldl_wrap ns _ (fun x hx => h1 x (by simp [hx])) h,
      List.prod_cons, Nat.mul_assoc]

end Hermipy
