import Verif.Lemmas.TransformOk
import Verif.Lemmas.Converters
import Verif.Spec.Discretize

/-! # Discretisation -/

namespace Hermipy

open Spec

theorem rdInit_of {α : Type} {v : List (Option α)} {i : Nat} {x : α} (h : v[i]? = some (some x)) : rdInit v i = .ok x := by
  rw [rdInit, rd, h]; rfl

section

variable {α : Type} [Add α] [Mul α] [Zero α]

/-- The entry of a mapped point after `k` products were added. -/
def mapRow (t : α) (row p : List α) (k : Nat) : α := (List.range k).foldl (fun a j => a + row.getD j 0 * p.getD j 0) t

theorem mapRow_succ (t : α) (row p : List α) (k : Nat) : mapRow t row p (k + 1) = mapRow t row p k + row.getD k 0 * p.getD k 0 := by
  rw [mapRow, List.range_succ, List.foldl_append]; rfl

/-- The mapped point. -/
def affineF (t : List α) (D : List (List α)) (p : List α) : List α :=
  (List.range p.length).map fun i => mapRow (t.getD i 0) (D.getD i []) p p.length

omit [Add α] [Mul α] in
theorem cartesian_getD {nodes : List (List α)} {i : Nat} {p : IVec} (h : (boxList (nodes.map List.length))[i]? = some p) :
    (cartesian nodes)[i]? = some (pick 0 nodes p) := by
  rw [cartesian_pick 0, List.getElem?_map, h]
  rfl

omit [Add α] [Mul α] [Zero α] in
theorem cartesian_bounds {nodes : List (List α)} (h1 : nodes ≠ []) (hpos : ∀ n ∈ nodes, n ≠ []) (hsm : (cartesian nodes).length < 2 ^ 32) :
    nodes.map List.length ≠ [] ∧ (∀ b ∈ nodes.map List.length, 1 ≤ b ∧ b < u32) ∧
      (boxList (nodes.map List.length)).length = (cartesian nodes).length ∧
      (nodes.map List.length).foldl (fun t n => wrap32 (t * n)) 1 = (cartesian nodes).length := by
  have hl : (nodes.map (List.map fun _ => (0 : ℝ))).map List.length = nodes.map List.length := by simp [Function.comp_def]
  have hc : (gridPoints (nodes.map (List.map fun _ => (0 : ℝ)))).length = (cartesian nodes).length := by
    rw [gridPoints, length_cartesian, length_cartesian, hl]
  have hg : Spec.Grid (nodes.map (List.map fun _ => (0 : ℝ))) (List.replicate nodes.length 0) :=
    ⟨by simpa using h1, by simpa using hpos, ⟨by simp, fun f hf => by left; exact List.eq_of_mem_replicate hf⟩, by rw [hc]; exact hsm⟩
  have := hg.bounds
  rwa [hl, hc] at this

theorem map_point_gen {t : List α} {D : List (List α)} {p : List α} (ht : t.length = p.length) (hD : D.length = p.length)
    (hr : ∀ r ∈ D, r.length = p.length) {buf : List (Option α)} (hb : buf.length = p.length) :
    map_point t D (p.map some) buf = .ok ((affineF t D p).map some) := by
  rw [map_point]
  obtain ⟨r, e, hl, hv⟩ := forRange_inv (n := t.length) (acc := buf)
    (body := fun i mapped_node => do
      let x ← rd t i
      let mapped_node ← wr mapped_node i (some x)
      forRange t.length mapped_node fun j mapped_node => do
        let old ← rdInit mapped_node i
        let row ← rd D i
        let d ← rd row j
        let x ← rdInit (p.map some) j
        wr mapped_node i (some (old + d * x)))
    (fun k m => m.length = p.length ∧ ∀ i, i < k → m[i]? = some (some (mapRow (t.getD i 0) (D.getD i []) p p.length)))
    ⟨hb, fun i hi => by omega⟩
    (by
      rintro i m hi ⟨hm, hv⟩
      rw [rd_getD 0 hi]
      simp only [Out.ok_bind]
      rw [wr_of_lt (by omega)]
      simp only [Out.ok_bind]
      obtain ⟨m', e, hm', hv', hi'⟩ := forRange_inv (n := t.length) (acc := m.set i (some (t.getD i 0)))
        (body := fun j mapped_node => do
          let old ← rdInit mapped_node i
          let row ← rd D i
          let d ← rd row j
          let x ← rdInit (p.map some) j
          wr mapped_node i (some (old + d * x)))
        (fun k m' => m'.length = p.length ∧ (∀ a, a < i → m'[a]? = m[a]?) ∧
          m'[i]? = some (some (mapRow (t.getD i 0) (D.getD i []) p k)))
        ⟨by simpa using hm, fun a ha => by rw [List.getElem?_set_ne (by omega)], by
          rw [List.getElem?_set_self (by omega)]; rfl⟩
        (by
          rintro j m' hj ⟨hl, ha, hv⟩
          rw [rdInit_of hv, rd_getD [] (by omega)]
          simp only [Out.ok_bind]
          have hrow : (D.getD i []).length = p.length := hr _ (by
            rw [List.getD_eq_getElem?_getD, List.getElem?_eq_getElem (by omega : i < D.length)]
            exact List.getElem_mem _)
          rw [rd_getD 0 (by omega)]
          simp only [Out.ok_bind]
          have hx : rdInit (p.map some) j = .ok (p.getD j 0) := rdInit_of (by
            rw [List.getElem?_map, List.getElem?_eq_getElem (by omega : j < p.length)]
            simp [(by omega : j < p.length)])
          rw [hx]
          simp only [Out.ok_bind]
          rw [wr_of_lt (by omega)]
          refine ⟨_, rfl, by simpa using hl, fun a h => by rw [List.getElem?_set_ne (by omega)]; exact ha a h, ?_⟩
          rw [List.getElem?_set_self (by omega), mapRow_succ])
      rw [ht] at hi'
      refine ⟨m', e, hm', fun a ha => ?_⟩
      by_cases hai : a = i
      · rw [hai]; exact hi'
      · rw [hv' a (by omega)]; exact hv a (by omega))
  rw [e]
  congr 1
  apply List.ext_getElem?
  intro i
  by_cases hi : i < p.length
  · rw [hv i (by omega), affineF, List.map_map, List.getElem?_map, List.getElem?_range hi]
    rfl
  · rw [List.getElem?_eq_none (by omega), List.getElem?_eq_none (by simp [affineF]; omega)]

theorem affineF_length (t : List α) (D : List (List α)) (p : List α) : (affineF t D p).length = p.length := by simp [affineF]

theorem discretizeStep_gen {func : List α → Out α} {g : List α → α} {nodes : List (List α)} {t : List α} {D : List (List α)}
    (ht : t.length = nodes.length) (hD : D.length = nodes.length) (hr : ∀ r ∈ D, r.length = nodes.length) {i : Nat} {p : IVec}
    (hp : List.Forall₂ (· < ·) p (nodes.map List.length)) {a b : List (Option α)} {res : List α} (ha : a.length = nodes.length)
    (hb : b.length = nodes.length) (hi : i < res.length)
    (hf : func (affineF t D (pick 0 nodes p)) = .ok (g (affineF t D (pick 0 nodes p)))) :
    ∃ a' b', discretizeStep func nodes t D i p (a, b, res) = .ok (a', b', res.set i (g (affineF t D (pick 0 nodes p)))) ∧
      a'.length = nodes.length ∧ b'.length = nodes.length := by
  have hpl : p.length = nodes.length := by rw [hp.length_eq]; simp
  have hkl : (pick 0 nodes p).length = nodes.length := by simp [pick, hpl]
  have e1 : forRange nodes.length a (fun j node => do
      let ns ← rd nodes j
      let pj ← rd p j
      let x ← rd ns pj
      wr node j (some x)) = .ok ((pick 0 nodes p).map some) := by
    obtain ⟨m, e, hl, hv⟩ := forRange_inv (n := nodes.length) (acc := a) (body := fun j node => do
      let ns ← rd nodes j
      let pj ← rd p j
      let x ← rd ns pj
      wr node j (some x))
      (fun k m => m.length = nodes.length ∧ ∀ j, j < k → m[j]? = some (some ((pick 0 nodes p).getD j 0)))
      ⟨ha, fun j hj => by omega⟩
      (by
        rintro j m hj ⟨hl, hv⟩
        have h1 := mem_boxList_getD hp (k := j) (by simpa using hj)
        have h2 : (nodes.map List.length).getD j 0 = (nodes.getD j []).length := by simp [hj]
        rw [rd_getD [] hj, rd_getD 0 (by omega)]
        simp only [Out.ok_bind]
        rw [rd_getD 0 (by omega)]
        simp only [Out.ok_bind]
        rw [wr_of_lt (by omega)]
        refine ⟨_, rfl, by simpa using hl, fun k hk => ?_⟩
        by_cases hkj : k = j
        · subst hkj
          rw [List.getElem?_set_self (by omega), pick_getD 0 hpl hj]
        · rw [List.getElem?_set_ne (by omega)]
          exact hv k (by omega))
    rw [e]
    congr 1
    apply List.ext_getElem?
    intro j
    by_cases hj : j < nodes.length
    · rw [hv j hj, List.getElem?_map, List.getElem?_eq_getElem (by omega : j < (pick 0 nodes p).length)]
      simp [(by omega : j < (pick 0 nodes p).length)]
    · rw [List.getElem?_eq_none (by omega), List.getElem?_eq_none (by simp [hkl]; omega)]
  have e2 := map_point_gen (t := t) (D := D) (p := pick 0 nodes p) (buf := b) (by rw [hkl]; exact ht) (by rw [hkl]; exact hD) (by rw [hkl]; exact hr)
    (by rw [hkl]; exact hb)
  have hal : (affineF t D (pick 0 nodes p)).length = nodes.length := by rw [affineF_length, hkl]
  have e3 : (List.range nodes.length).mapM (fun k => rdInit ((affineF t D (pick 0 nodes p)).map some) k) =
      .ok (affineF t D (pick 0 nodes p)) := by
    rw [mapM_ok (g := fun k => (affineF t D (pick 0 nodes p)).getD k 0)]
    · congr 1
      rw [← hal, range_map_getD]
    · intro k hk
      rw [List.mem_range] at hk
      apply rdInit_of
      rw [List.getElem?_map, List.getElem?_eq_getElem (by omega : k < (affineF t D (pick 0 nodes p)).length)]
      simp [(by omega : k < (affineF t D (pick 0 nodes p)).length)]
  refine ⟨(pick 0 nodes p).map some, (affineF t D (pick 0 nodes p)).map some, ?_, by simpa using hkl, by simpa using hal⟩
  rw [discretizeStep]
  simp only [e1, e2, e3, hf, Out.ok_bind]
  rw [wr_of_lt hi]
  rfl

theorem foldl_wrap_zero : ∀ (ns : List Nat) (t : Nat), t = 0 ∨ 0 ∈ ns → ns.foldl (fun t n => wrap32 (t * n)) t = 0
  | [], t, h => by simpa using h
  | n :: ns, t, h => by
    rw [List.foldl_cons]
    apply foldl_wrap_zero
    rcases h with rfl | h
    · left; simp [wrap32]
    · rcases List.mem_cons.1 h with rfl | h
      · left; simp [wrap32]
      · right; exact h

theorem discretize_gen {func : List α → Out α} {g : List α → α} {nodes : List (List α)} {t : List α} {D : List (List α)}
    (h1 : nodes ≠ []) (hsm : (cartesian nodes).length < 2 ^ 32)
    (ht : t.length = nodes.length) (hD : D.length = nodes.length) (hr : ∀ r ∈ D, r.length = nodes.length)
    (hf : ∀ p ∈ cartesian nodes, func (affineF t D p) = .ok (g (affineF t D p))) :
    discretize func nodes t D = .ok ((cartesian nodes).map fun p => g (affineF t D p)) := by
  by_cases hpos : ∀ n ∈ nodes, n ≠ []
  · obtain ⟨hne, hb, hN, htot⟩ := cartesian_bounds h1 hpos hsm
    rw [discretize]
    rw [htot, ← hN]
    obtain ⟨gi, ⟨a, b, res⟩, e, -, -, hl, hv⟩ := gridLoop_inv hne hb
      (acc := (List.replicate nodes.length none, List.replicate nodes.length none,
        List.replicate (boxList (nodes.map List.length)).length (0 : α)))
      (body := discretizeStep func nodes t D)
      (fun i st => st.1.length = nodes.length ∧ st.2.1.length = nodes.length ∧
        st.2.2.length = (boxList (nodes.map List.length)).length ∧
        ∀ j p, j < i → (cartesian nodes)[j]? = some p → st.2.2[j]? = some (g (affineF t D p)))
      ⟨by simp, by simp, by simp, fun j p hj => by omega⟩
      (by
        rintro i p ⟨a, b, res⟩ hp ⟨ha, hb, hl, hv⟩
        dsimp only at ha hb hl hv
        have hpt := cartesian_getD hp
        have hi := (List.getElem?_eq_some_iff.1 hp).1
        obtain ⟨a', b', e, ha', hb'⟩ := discretizeStep_gen ht hD hr (mem_boxList.1 (List.mem_of_getElem? hp)) ha hb
          (i := i) (res := res) (by omega) (hf _ (List.mem_of_getElem? hpt))
        refine ⟨_, e, ha', hb', by simpa using hl, fun j q hj hq => ?_⟩
        by_cases hji : j = i
        · subst hji
          rw [hpt] at hq
          rw [← Option.some.inj hq]
          exact List.getElem?_set_self (by omega)
        · rw [List.getElem?_set_ne (by omega)]
          exact hv j q (by omega) hq)
    rw [e]
    simp only [Out.ok_bind]
    congr 1
    apply List.ext_getElem?
    intro j
    rw [List.getElem?_map]
    cases hq : (cartesian nodes)[j]? with
    | some p =>
      rw [hv j p (by rw [hN]; exact (List.getElem?_eq_some_iff.1 hq).1) hq]
      rfl
    | none =>
      rw [List.getElem?_eq_none_iff] at hq
      rw [List.getElem?_eq_none (by rw [hl, hN]; exact hq)]
      rfl
  · push Not at hpos
    obtain ⟨n, hn, rfl⟩ := hpos
    have h0 : (0 : Nat) ∈ nodes.map List.length := List.mem_map.2 ⟨[], hn, rfl⟩
    have hz : cartesian nodes = [] := by
      rw [← List.length_eq_zero_iff, length_cartesian]
      exact List.prod_eq_zero h0
    rw [discretize, hz]
    rw [foldl_wrap_zero _ _ (Or.inr h0)]
    rfl

end

theorem affineF_real (t : List ℝ) (D : List (List ℝ)) (p : List ℝ) : affineF t D p = affine t D p := by
  rw [affineF, affine]
  refine List.map_congr_left fun i _ => ?_
  have : ∀ k, mapRow (t.getD i 0) (D.getD i []) p k = t.getD i 0 + ∑ j ∈ Finset.range k, (D.getD i []).getD j 0 * p.getD j 0 := by
    intro k
    induction k with
    | zero => simp [mapRow]
    | succ k ih => rw [mapRow_succ, ih, Finset.sum_range_succ, add_assoc]
  exact this _

theorem affine_length (t : List ℝ) (D : List (List ℝ)) (p : List ℝ) : (affine t D p).length = p.length := by simp [affine]

theorem discretize_ok {func : List ℝ → Out ℝ} {g : List ℝ → ℝ} {nodes : List (List ℝ)} {t : List ℝ} {D : List (List ℝ)}
    (h1 : nodes ≠ []) (hsm : (gridPoints nodes).length < 2 ^ 32)
    (ht : t.length = nodes.length) (hD : D.length = nodes.length) (hr : ∀ r ∈ D, r.length = nodes.length)
    (hf : ∀ p ∈ gridPoints nodes, func (affine t D p) = .ok (g (affine t D p))) :
    discretize func nodes t D = .ok ((gridPoints nodes).map fun p => g (affine t D p)) := by
  rw [discretize_gen (g := g) h1 hsm ht hD hr fun p hp => by rw [affineF_real]; exact hf p hp]
  simp only [affineF_real]
  rfl

/-! ## The compiled functions -/

theorem intern_none {F : Type} {hash : String → Nat} {compile : String → Option F} {files : SoFiles F} {body : String}
    (h : files (hash body) = none) : intern_function hash compile files body (hash body) = compile body := by
  rw [intern_function, h]
  cases hc : compile body with
  | none => exact h
  | some f => simp

/-- What a file contains after a history: the function of the first body of that hash that compiles. -/
theorem filesAfter_eq {F : Type} (hash : String → Nat) (compile : String → Option F) (n : Nat) : ∀ (history : List String),
    filesAfter hash compile history n = ((history.filter fun b => hash b == n).findSome? compile) := by
  intro history
  induction history using List.reverseRecOn with
  | nil => rfl
  | append_singleton l b ih =>
    have hstep : filesAfter hash compile (l ++ [b]) = intern_function hash compile (filesAfter hash compile l) b := by
      simp [filesAfter, List.foldl_append]
    rw [hstep, List.filter_append, List.findSome?_append, ← ih]
    by_cases hb : hash b = n
    · subst hb
      cases hf : filesAfter hash compile l (hash b) with
      | some f => rw [intern_function, hf]; simp [hf]
      | none =>
        rw [intern_none hf]
        simp
    · have : (List.filter (fun b => hash b == n) [b]) = [] := by simp [hb]
      rw [this, List.findSome?_nil, Option.or_none, intern_function]
      cases filesAfter hash compile l (hash b) with
      | some f => rfl
      | none =>
        cases compile b with
        | some f => exact if_neg (Ne.symm hb)
        | none => rfl

end Hermipy
