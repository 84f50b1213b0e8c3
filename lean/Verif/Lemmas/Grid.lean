import Verif.Lemmas.Count

/-! # The grid iterator enumerates the box in C order -/

namespace Hermipy

/-- Successor in the box, last coordinate fastest. -/
def nxt : IVec → IVec → Option IVec
  | b :: bs, x :: xs =>
    match nxt bs xs with
    | some ys => some (x :: ys)
    | none => if x + 1 < b then some ((x + 1) :: List.replicate xs.length 0) else none
  | _, _ => none

/-- The elements of the box from `m` on. -/
def fromBox : IVec → IVec → List IVec
  | b :: bs, x :: xs =>
    (fromBox bs xs).map (fun m => x :: m) ++
      (List.range' (x + 1) (b - x - 1)).flatMap (fun a => (boxList bs).map (fun m => a :: m))
  | _, _ => [[]]

theorem fromBox_zeros : ∀ {bs : IVec}, (∀ b ∈ bs, 1 ≤ b) → fromBox bs (List.replicate bs.length 0) = boxList bs
  | [], _ => by simp [fromBox, boxList]
  | b :: bs, h => by
    obtain ⟨c, rfl⟩ : ∃ c, b = c + 1 := ⟨b - 1, by have := h b (by simp); omega⟩
    rw [List.length_cons, List.replicate_succ, fromBox, boxList, fromBox_zeros (fun x hx => h x (by simp [hx])),
      List.range_eq_range', List.range'_succ, List.flatMap_cons]
    simp

theorem fromBox_next : ∀ {bs m : IVec}, (∀ b ∈ bs, 1 ≤ b) → List.Forall₂ (· < ·) m bs →
    fromBox bs m = m :: (match nxt bs m with | some m' => fromBox bs m' | none => [])
  | [], [], _, _ => by simp [fromBox, nxt]
  | [], _ :: _, _, h => by cases h
  | _ :: _, [], _, h => by cases h
  | b :: bs, x :: xs, hb, h => by
    cases h with
    | cons h1 h2 =>
      have ih := fromBox_next (fun b hx => hb b (by simp [hx])) h2
      rw [fromBox, ih, nxt]
      cases hn : nxt bs xs with
      | some ys => simp [fromBox]
      | none =>
        by_cases hx : x + 1 < b
        · simp only [hx, if_true]
          rw [h2.length_eq, fromBox, fromBox_zeros (fun b hx => hb b (by simp [hx]))]
          obtain ⟨c, hc⟩ : ∃ c, b - x - 1 = c + 1 := ⟨b - x - 2, by omega⟩
          rw [hc, List.range'_succ, show b - (x + 1) - 1 = c by omega]
          simp
        · simp only [hx, if_false, show b - x - 1 = 0 by omega]
          simp

theorem nxt_mem : ∀ {bs m m' : IVec}, (∀ b ∈ bs, 1 ≤ b) → List.Forall₂ (· < ·) m bs → nxt bs m = some m' →
    List.Forall₂ (· < ·) m' bs
  | [], [], _, _, _, h => by simp [nxt] at h
  | [], _ :: _, _, _, h, _ => by cases h
  | _ :: _, [], _, _, h, _ => by cases h
  | b :: bs, x :: xs, m', hb, h, hn => by
    cases h with
    | cons h1 h2 =>
      rw [nxt] at hn
      split at hn
      · rename_i ys hys
        simp at hn
        subst hn
        exact .cons h1 (nxt_mem (fun b hx => hb b (by simp [hx])) h2 hys)
      · split at hn
        · rename_i hlt
          simp at hn
          subst hn
          refine .cons hlt ?_
          rw [h2.length_eq]
          clear * - hb
          induction bs with
          | nil => simp
          | cons c bs ih =>
            rw [List.length_cons, List.replicate_succ]
            exact .cons (hb c (by simp)) (ih (fun b hx => by
              rcases List.mem_cons.1 hx with h | h
              · exact hb b (by simp [h])
              · exact hb b (by simp [h])))
        · simp at hn

theorem nxt_snoc : ∀ {p pb : IVec} {x b : Nat}, p.length = pb.length →
    nxt (pb ++ [b]) (p ++ [x]) = if x + 1 < b then some (p ++ [x + 1]) else (nxt pb p).map (fun m => m ++ [0])
  | [], [], x, b, _ => by simp [nxt]
  | [], _ :: _, _, _, h => by simp at h
  | _ :: _, [], _, _, h => by simp at h
  | y :: p, c :: pb, x, b, h => by
    have ih := nxt_snoc (p := p) (pb := pb) (x := x) (b := b) (by simpa using h)
    rw [List.cons_append, List.cons_append, nxt, ih, nxt]
    split
    · rename_i ys hys
      split at hys
      · rename_i hlt
        simp at hys
        simp [hlt, ← hys]
      · rename_i hlt
        simp only [Option.map_eq_some_iff] at hys
        obtain ⟨a, ha, rfl⟩ := hys
        simp [hlt, ha]
    · rename_i hn
      split at hn
      · simp at hn
      · rename_i hlt
        simp at hn
        simp only [hlt, if_false, hn]
        split
        · simp [← List.replicate_succ']
        · simp

/-- The loop and the final update of `increment`, on a state whose entries after position `|p|` are reset. -/
theorem carry_spec (ub : IVec) (hu : ∀ b ∈ ub, 1 ≤ b ∧ b < u32) : ∀ (p pb : IVec) (x b k : Nat) (cb : IVec), ub = pb ++ b :: cb →
    cb.length = k → p.length = pb.length → x < b → List.Forall₂ (· < ·) p pb →
    (do
      let (i, m) ← Grid.carry ub p.length (p ++ x :: List.replicate k 0)
      let m0 ← rd m 0
      let b0 ← rd ub 0
      if i = 0 ∧ m0 = pred32 b0 then .ok { upper_bounds := ub, multi_index := m, full := true }
      else
        let x ← rd m i
        let m ← wr m i (wrap32 (x + 1))
        .ok { upper_bounds := ub, multi_index := m, full := false } : Out GridIter) =
    match nxt (pb ++ [b]) (p ++ [x]) with
    | some m' => .ok { upper_bounds := ub, multi_index := m' ++ List.replicate k 0, full := false }
    | none => .ok { upper_bounds := ub, multi_index := (match p with | [] => [x] | y :: p => y :: p.map (fun _ => 0) ++ [0]) ++ List.replicate k 0, full := true } := by
  intro p
  induction p using List.reverseRecOn with
  | nil =>
    intro pb x b k cb hub hk hl hx _
    have : pb = [] := by simpa using hl.symm
    subst this
    have hb := hu b (by simp [hub])
    have hp : pred32 b = b - 1 := by rw [pred32, if_neg (by omega)]
    subst hub
    simp only [List.length_nil, List.nil_append, Grid.carry, rd_zero_cons, Out.ok_bind, hp, true_and, nxt]
    by_cases hlt : x + 1 < b
    · have hw : wrap32 (x + 1) = x + 1 := Nat.mod_eq_of_lt (by omega)
      simp only [hlt, if_neg (show ¬ x = b - 1 by omega), if_true, wr_zero_cons, Out.ok_bind, hw]
      simp
    · simp only [hlt, if_pos (show x = b - 1 by omega), if_false]
      simp
  | append_singleton q y ih =>
    intro pb x b k cb hub hk hl hx hp
    simp at hl
    obtain ⟨qb, c, rfl⟩ : ∃ qb c, pb = qb ++ [c] :=
      ⟨pb.dropLast, pb.getLast (by intro h; simp [h] at hl), by rw [List.dropLast_append_getLast]⟩
    simp at hl
    have hb := hu b (by simp [hub])
    have hpr : pred32 b = b - 1 := by rw [pred32, if_neg (by omega)]
    rw [nxt_snoc (by simp [hl])]
    have hq := List.forall₂_iff_get.1 hp
    have hyc : y < c := by
      have := hq.2 q.length (by simp) (by simp [hl])
      simpa [hl] using this
    have hqq : List.Forall₂ (· < ·) q qb := by
      rw [List.forall₂_iff_get]
      refine ⟨hl, fun i h1 h2 => ?_⟩
      have := hq.2 i (by simp; omega) (by simp; omega)
      simpa [List.getElem_append_left h1, List.getElem_append_left h2] using this
    rw [List.length_append, List.length_singleton, Grid.carry]
    have hrm : rd ((q ++ [y]) ++ x :: List.replicate k 0) (q.length + 1) = .ok x := rd_append_length _ _ _ (by simp)
    have hrb : rd ub (q.length + 1) = .ok b := by rw [hub]; exact rd_append_length _ _ _ (by simp [hl])
    simp only [hrm, hrb, Out.ok_bind, hpr]
    by_cases hlt : x + 1 < b
    · have hw : wrap32 (x + 1) = x + 1 := Nat.mod_eq_of_lt (by omega)
      obtain ⟨z, zs, hz⟩ : ∃ z zs, (q ++ [y]) ++ x :: List.replicate k 0 = z :: zs := by
        cases q <;> simp
      obtain ⟨w, ws, hw'⟩ : ∃ w ws, ub = w :: ws := by
        cases ub with
        | nil => simp at hub
        | cons a l => exact ⟨a, l, rfl⟩
      have hr0 : rd ((q ++ [y]) ++ x :: List.replicate k 0) 0 = .ok z := by rw [hz, rd_zero_cons]
      have hr0' : rd ub 0 = .ok w := by rw [hw', rd_zero_cons]
      have hwm : wr ((q ++ [y]) ++ x :: List.replicate k 0) (q.length + 1) (x + 1) =
        .ok ((q ++ [y]) ++ (x + 1) :: List.replicate k 0) := wr_append_length _ _ _ _ (by simp)
      simp only [if_neg (show ¬ x = b - 1 by omega), Out.ok_bind, hlt, if_true, hr0, hr0',
        show ¬ (q.length + 1 = 0 ∧ z = pred32 w) by omega, if_false, hrm, hw, hwm]
      simp
    · have hwm : wr ((q ++ [y]) ++ x :: List.replicate k 0) (q.length + 1) 0 =
        .ok ((q ++ [y]) ++ 0 :: List.replicate k 0) := wr_append_length _ _ _ _ (by simp)
      simp only [if_pos (show x = b - 1 by omega), hlt, if_false, hwm, Out.ok_bind]
      have := ih qb y c (k + 1) (b :: cb) (by rw [hub]; simp) (by simp [hk]) hl hyc hqq
      rw [List.replicate_succ] at this
      rw [List.append_assoc, List.singleton_append, this]
      cases nxt (qb ++ [c]) (q ++ [y]) with
      | some m' => simp
      | none =>
        cases q with
        | nil => simp
        | cons z q => simp

theorem grid_increment {ub m : IVec} (hne : ub ≠ []) (hu : ∀ b ∈ ub, 1 ≤ b ∧ b < u32) (hm : List.Forall₂ (· < ·) m ub) :
    match nxt ub m with
    | some m' => GridIter.increment ⟨ub, m, false⟩ = .ok ⟨ub, m', false⟩
    | none => ∃ z, GridIter.increment ⟨ub, m, false⟩ = .ok ⟨ub, z, true⟩ := by
  have hl := hm.length_eq
  have hpos := List.length_pos_iff.2 hne
  obtain ⟨pb, b, rfl⟩ : ∃ pb b, ub = pb ++ [b] :=
    ⟨ub.dropLast, ub.getLast hne, by rw [List.dropLast_append_getLast]⟩
  obtain ⟨p, x, rfl⟩ : ∃ p x, m = p ++ [x] :=
    ⟨m.dropLast, m.getLast (by intro h; simp [h] at hl), by rw [List.dropLast_append_getLast]⟩
  simp at hl
  have hq := List.forall₂_iff_get.1 hm
  have hxb : x < b := by
    have := hq.2 p.length (by simp) (by simp [hl])
    simpa [hl] using this
  have hqq : List.Forall₂ (· < ·) p pb := by
    rw [List.forall₂_iff_get]
    refine ⟨hl, fun i h1 h2 => ?_⟩
    have := hq.2 i (by simp; omega) (by simp; omega)
    simpa [List.getElem_append_left h1, List.getElem_append_left h2] using this
  have := carry_spec (pb ++ [b]) hu p pb x b 0 [] rfl rfl hl hxb hqq
  simp only [List.replicate_zero, List.append_nil] at this
  rw [GridIter.increment, if_neg (by simp)]
  simp only [show (pb ++ [b]).length - 1 = p.length by simp [hl]]
  cases hn : nxt (pb ++ [b]) (p ++ [x]) with
  | some m' => rw [hn] at this; exact this
  | none => rw [hn] at this; exact ⟨_, this⟩

theorem gridListLoop_spec {ub : IVec} (hne : ub ≠ []) (hu : ∀ b ∈ ub, 1 ≤ b ∧ b < u32) : ∀ (n : Nat) (m : IVec) (acc : List IVec),
    List.Forall₂ (· < ·) m ub → (fromBox ub m).length = n →
    gridListLoop ⟨ub, m, false⟩ acc = .ok (acc ++ fromBox ub m) := by
  intro n
  induction n with
  | zero =>
    intro m acc hm hn
    rw [fromBox_next (fun b hb => (hu b hb).1) hm] at hn
    simp at hn
  | succ n ih =>
    intro m acc hm hn
    have hinc := grid_increment hne hu hm
    have hfb := fromBox_next (fun b hb => (hu b hb).1) hm
    rw [gridListLoop]
    cases hx : nxt ub m with
    | some m' =>
      rw [hx] at hinc hfb
      simp only at hinc hfb
      rw [hfb] at hn
      simp at hn
      simp only [hinc, Out.ok_bind, Bool.false_eq_true, if_false]
      rw [ih m' _ (nxt_mem (fun b hb => (hu b hb).1) hm hx) hn, hfb]
      simp
    | none =>
      rw [hx] at hinc hfb
      obtain ⟨z, hz⟩ := hinc
      simp only [hz, Out.ok_bind, Bool.false_eq_true, if_false]
      rw [gridListLoop, hfb]
      simp

theorem forall₂_zeros {ub : IVec} (hu : ∀ b ∈ ub, 1 ≤ b) : List.Forall₂ (· < ·) (List.replicate ub.length 0) ub := by
  induction ub with
  | nil => simp
  | cons c bs ih =>
    rw [List.length_cons, List.replicate_succ]
    exact .cons (hu c (by simp)) (ih (fun b hb => hu b (by simp [hb])))

theorem grid_list {ub : IVec} (hne : ub ≠ []) (hu : ∀ b ∈ ub, 1 ≤ b ∧ b < u32) : Grid.list ub = .ok (boxList ub) := by
  have hz := forall₂_zeros (fun b hb => (hu b hb).1)
  rw [Grid.list, mkGrid, gridListLoop_spec hne hu _ _ _ hz rfl, fromBox_zeros (fun b hb => (hu b hb).1)]
  simp

/-! ## Grid index -/

/-- C-order rank. -/
def gridRank : IVec → IVec → Nat
  | b :: bs, x :: xs => x * bs.prod + gridRank bs xs
  | _, _ => 0

theorem boxList_rank : ∀ {bs : IVec} {k : Nat} {m : IVec}, (boxList bs)[k]? = some m → gridRank bs m = k
  | [], k, m, h => by
    cases k with
    | zero => simp [boxList] at h; subst h; rfl
    | succ k => simp [boxList] at h
  | b :: bs, k, m, h => by
    have key : ∀ (n s k : Nat), ((List.range' s n).flatMap (fun a => (boxList bs).map (fun m => a :: m)))[k]? = some m →
        gridRank (b :: bs) m = s * bs.prod + k := by
      intro n
      induction n with
      | zero => intro s k h; simp at h
      | succ n ih =>
        intro s k h
        rw [List.range'_succ, List.flatMap_cons] at h
        have hlen : ((boxList bs).map (fun m => s :: m)).length = bs.prod := by simp [length_boxList]
        by_cases hk : k < bs.prod
        · rw [List.getElem?_append_left (by omega), List.getElem?_map, Option.map_eq_some_iff] at h
          obtain ⟨a, ha, rfl⟩ := h
          rw [gridRank, boxList_rank ha]
        · rw [List.getElem?_append_right (by omega), hlen] at h
          rw [ih _ _ h, Nat.add_mul]
          omega
    rw [boxList, List.range_eq_range'] at h
    simpa using key b 0 k h

theorem boxList_rank_lt : ∀ {bs m : IVec}, List.Forall₂ (· < ·) m bs → gridRank bs m < bs.prod
  | [], [], _ => by simp [gridRank]
  | b :: bs, x :: xs, h => by
    cases h with
    | cons h1 h2 =>
      have := boxList_rank_lt h2
      rw [gridRank, List.prod_cons]
      calc x * bs.prod + gridRank bs xs < x * bs.prod + bs.prod := by omega
        _ = (x + 1) * bs.prod := by ring
        _ ≤ b * bs.prod := Nat.mul_le_mul_right _ h1

/-- Little-endian mixed-radix value. -/
def leVal : IVec → IVec → Nat → Nat
  | x :: xs, b :: bs, f => f * x + leVal xs bs (f * b)
  | _, _, _ => 0

theorem leVal_append : ∀ {l lb : IVec} (l2 lb2 : IVec) (f : Nat), l.length = lb.length →
    leVal (l ++ l2) (lb ++ lb2) f = leVal l lb f + leVal l2 lb2 (f * lb.prod)
  | [], [], _, _, f, _ => by simp [leVal]
  | [], _ :: _, _, _, _, h => by simp at h
  | _ :: _, [], _, _, _, h => by simp at h
  | x :: l, b :: lb, l2, lb2, f, h => by
    simp only [List.cons_append, leVal, List.prod_cons]
    rw [leVal_append l2 lb2 _ (by simpa using h), Nat.mul_assoc]
    omega

theorem leVal_reverse : ∀ {m bs : IVec}, m.length = bs.length → leVal m.reverse bs.reverse 1 = gridRank bs m
  | [], [], _ => by simp [leVal, gridRank]
  | [], _ :: _, h => by simp at h
  | _ :: _, [], h => by simp at h
  | x :: m, b :: bs, h => by
    have hl : m.length = bs.length := by simpa using h
    rw [List.reverse_cons, List.reverse_cons, leVal_append _ _ _ (by simp [hl]), leVal_reverse hl, gridRank]
    simp [leVal, List.prod_reverse, Nat.mul_comm]
    omega

theorem indexLoop_val : ∀ (l lb : IVec) (r f R F : Nat), r = R % u32 → f % u32 = F % u32 →
    Grid.indexLoop l lb r f = (R + leVal l lb F) % u32
  | [], _, r, f, R, F, h1, _ => by simp [Grid.indexLoop, leVal, h1]
  | _ :: _, [], r, f, R, F, h1, _ => by simp [Grid.indexLoop, leVal, h1]
  | x :: l, b :: lb, r, f, R, F, h1, h2 => by
    rw [Grid.indexLoop, leVal, indexLoop_val l lb _ _ (R + F * x) (F * b), Nat.add_assoc]
    · rw [wrap32, h1]
      exact Nat.ModEq.add (Nat.mod_modEq R u32) (Nat.ModEq.mul_right x h2)
    · rw [wrap32, Nat.mod_mod]
      exact Nat.ModEq.mul_right _ h2

theorem grid_index {ub m : IVec} (hl : m.length = ub.length) (h : gridRank ub m < u32) :
    Grid.index ub m = gridRank ub m := by
  rw [Grid.index, indexLoop_val m.reverse ub.reverse 0 1 0 1 rfl rfl, leVal_reverse hl, Nat.zero_add, Nat.mod_eq_of_lt h]

end Hermipy
