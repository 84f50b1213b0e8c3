import Verif.Lemmas.Chain
import Std.Data.String.ToNat

/-! # The textual keys of the hash table -/

namespace Hermipy

theorem hash_print_toList_cons (x : Nat) (xs : IVec) :
    (hash_print (x :: xs)).toList = Nat.toDigits 10 x ++ '-' :: (hash_print xs).toList := by
  simp [hash_print, String.toList_append]

theorem dash_not_digit (n : Nat) : '-' ∉ Nat.toDigits 10 n := by
  intro h
  have := Nat.isDigit_of_mem_toDigits (by decide) (by decide) h
  simp [Char.isDigit] at this

theorem toDigits_inj {m n : Nat} (h : Nat.toDigits 10 m = Nat.toDigits 10 n) : m = n := by
  rw [← Nat.ofDigitChars_ten_toDigits (n := m), h, Nat.ofDigitChars_ten_toDigits]

theorem append_dash_inj : ∀ {a b u v : List Char}, '-' ∉ a → '-' ∉ b →
    a ++ '-' :: u = b ++ '-' :: v → a = b ∧ u = v
  | [], [], u, v, _, _, h => by simpa using h
  | [], c :: b, u, v, _, hb, h => by
    simp at h; simp at hb; exact absurd h.1 hb.1
  | c :: a, [], u, v, ha, _, h => by
    simp at h; simp at ha; exact absurd h.1.symm ha.1
  | c :: a, d :: b, u, v, ha, hb, h => by
    simp only [List.cons_append, List.cons.injEq] at h
    simp only [List.mem_cons, not_or] at ha hb
    have := append_dash_inj ha.2 hb.2 h.2
    exact ⟨by rw [h.1, this.1], this.2⟩

/-- Different multi-indices have different keys. -/
theorem hash_print_inj : ∀ {v w : IVec}, hash_print v = hash_print w → v = w
  | [], [], _ => rfl
  | [], y :: ys, h => by
    have := congrArg String.toList h
    rw [hash_print_toList_cons] at this
    simp [hash_print] at this
  | x :: xs, [], h => by
    have := congrArg String.toList h
    rw [hash_print_toList_cons] at this
    simp [hash_print] at this
  | x :: xs, y :: ys, h => by
    have := congrArg String.toList h
    rw [hash_print_toList_cons, hash_print_toList_cons] at this
    have := append_dash_inj (dash_not_digit x) (dash_not_digit y) this
    rw [toDigits_inj this.1, hash_print_inj (String.toList_inj.1 this.2)]

theorem insertAll_not_mem : ∀ (L : List IVec) (t : HashTable) (ind : Nat) (m : IVec), m ∉ L →
    insertAll t ind L (hash_print m) = t (hash_print m)
  | [], t, ind, m, _ => rfl
  | a :: L, t, ind, m, h => by
    simp only [List.mem_cons, not_or] at h
    rw [insertAll, insertAll_not_mem L _ _ m h.2, HashTable.insert, if_neg]
    intro e; exact h.1 (hash_print_inj e)

theorem insertAll_mem : ∀ (L : List IVec) (t : HashTable) (ind : Nat), L.Nodup →
    (∀ m ∈ L, t (hash_print m) = none) → ∀ k m, L[k]? = some m →
    insertAll t ind L (hash_print m) = some (ind + k)
  | [], t, ind, _, _, k, m, h => by simp at h
  | a :: L, t, ind, hnd, ht, k, m, h => by
    rw [List.nodup_cons] at hnd
    rw [insertAll]
    cases k with
    | zero =>
      simp at h; subst h
      rw [insertAll_not_mem L _ _ _ hnd.1, HashTable.insert, if_pos rfl, ht a (by simp)]
      simp
    | succ k =>
      simp at h
      rw [insertAll_mem L _ (ind + 1) hnd.2 _ k m h]
      · congr 1; omega
      · intro m' hm'
        rw [HashTable.insert, if_neg, ht m' (by simp [hm'])]
        intro e; have := hash_print_inj e; subst this; exact hnd.1 hm'

theorem freshIter_lookup {dim : Nat} {L : List IVec} (hnd : L.Nodup) (m : IVec) (k : Nat) :
    (freshIter dim L).hash_table (hash_print m) = some k ↔ L[k]? = some m := by
  constructor
  · intro h
    by_cases hm : m ∈ L
    · obtain ⟨j, hj, rfl⟩ := List.getElem_of_mem hm
      have := insertAll_mem L (fun _ => none) 0 hnd (by simp) j L[j] (by simp [hj])
      simp only [freshIter] at h
      rw [this] at h
      simp at h; subst h; simp [hj]
    · simp only [freshIter] at h
      rw [insertAll_not_mem L _ _ m hm] at h
      simp at h
  · intro h
    have := insertAll_mem L (fun _ => none) 0 hnd (by simp) k m h
    simp only [freshIter, this]; simp

theorem freshIter_index {dim : Nat} {L : List IVec} (hnd : L.Nodup) (m : IVec) (k : Nat) :
    (freshIter dim L).index m = .ok k ↔ L[k]? = some m := by
  rw [← freshIter_lookup (dim := dim) hnd, Iter.index]
  cases h : (freshIter dim L).hash_table (hash_print m) <;> simp

theorem freshIter_lookup_none {dim : Nat} {L : List IVec} (hnd : L.Nodup) (m : IVec) :
    (freshIter dim L).hash_table (hash_print m) = none ↔ m ∉ L := by
  constructor
  · intro h hm
    obtain ⟨j, hj, rfl⟩ := List.getElem_of_mem hm
    rw [(freshIter_lookup (dim := dim) hnd L[j] j).2 (by simp [hj])] at h
    simp at h
  · intro h
    simp only [freshIter]
    rw [insertAll_not_mem L _ _ m h]

theorem freshIter_has {dim : Nat} {L : List IVec} (hnd : L.Nodup) (m : IVec) :
    (freshIter dim L).has m = true ↔ m ∈ L := by
  rw [Iter.has]
  have := freshIter_lookup_none (dim := dim) hnd m
  cases h : (freshIter dim L).hash_table (hash_print m) with
  | none => simp [h] at this; simp [this]
  | some k => simp [h] at this; simp [this]

theorem freshIter_index_throws {dim : Nat} {L : List IVec} (hnd : L.Nodup) (m : IVec) :
    (freshIter dim L).index m = .throws ↔ m ∉ L := by
  rw [← freshIter_lookup_none (dim := dim) hnd, Iter.index]
  cases h : (freshIter dim L).hash_table (hash_print m) <;> simp

/-! ## Listing loop -/

theorem listLoop_full {it : Iter} (h : it.full = true) (r : List IVec) : listLoop it r = .ok r := by
  rw [listLoop]; simp [h]

theorem listLoop_from (it : Iter) (hne : it.list ≠ []) : ∀ (n : Nat) (it' : Iter) (r : List IVec),
    it'.list = it.list → it'.full = false → it'.index_list + n + 1 = it.list.length →
    it.list[it'.index_list]? = some it'.multi_index →
    listLoop it' r = .ok (r ++ it.list.drop it'.index_list)
  | 0, it', r, hl, hf, hn, hm => by
    rw [listLoop]
    have hlen : it.list.length ≠ 0 := by simp [hne]
    simp only [hf, Iter.increment, hl]
    rw [if_neg (by simp), if_pos ⟨hlen, by omega⟩]
    simp only [Out.ok_bind]
    rw [listLoop_full rfl]
    congr 2
    have : it'.index_list < it.list.length := by omega
    rw [List.drop_eq_getElem_cons this, List.getElem?_eq_getElem this] at *
    simp at hm
    rw [hm, List.drop_eq_nil_of_le (by omega)]
  | n + 1, it', r, hl, hf, hn, hm => by
    rw [listLoop]
    have h2 : it'.index_list + 1 < it.list.length := by omega
    simp only [hf, Iter.increment, hl]
    rw [if_neg (by simp), if_neg (by omega), rd_of_lt h2]
    simp only [Out.ok_bind]
    rw [listLoop_from it hne n _ _ (by simp) (by simp) (by simpa using (by omega))
      (by simp [h2])]
    simp only [List.append_assoc]
    have h3 : it'.index_list < it.list.length := by omega
    rw [List.drop_eq_getElem_cons h3]
    rw [List.getElem?_eq_getElem h3] at hm
    simp at hm
    simp [hm]

theorem listLoop_fresh {dim : Nat} {L : List IVec} (h : ∃ t, L = List.replicate dim 0 :: t) :
    listLoop (freshIter dim L) [] = .ok L := by
  obtain ⟨t, rfl⟩ := h
  rw [listLoop_from (freshIter dim (List.replicate dim 0 :: t)) (by simp [freshIter]) t.length _ _ rfl rfl
    (by simp [freshIter]) (by simp [freshIter])]
  simp [freshIter]

end Hermipy
