import Verif.Lemmas.Inner
import Verif.Props.Blocks

/-! # Properties C21 - C23: contraction -/

namespace Hermipy.Props

open Hermipy.Spec

variable {α : Type}

/-- C21. Contraction: with `D` the directions of exactly one factor and `K` those of both, the coefficient of the result at
`m` is the sum over the multi-indices `k` along `K` of the products of the coefficients at the joint multi-index.
Coefficients outside the index set count as zero, and multi-indices `k` outside the listing contribute nothing. -/
theorem C21_inner [NonUnitalNonAssocSemiring α] (s : IndexSet) (degree : Nat) (dirs1 dirs2 D K : List Nat)
    (hu : Usable s dirs1.length degree) (hz2 : Sized s dirs2.length degree) (hi1 : dirs1.Pairwise (· < ·))
    (hi2 : dirs2.Pairwise (· < ·)) (hsf : SharedFree dirs1 dirs2 D K) (hzD : D ≠ [] → Sized s D.length degree)
    (L1 L2 LD LK : List (List Nat)) (hL1 : s.s_list dirs1.length degree = .ok L1)
    (hL2 : s.s_list dirs2.length degree = .ok L2) (hLD : Listing s degree D LD) (hLK : Listing s degree K LK)
    (s1 s2 : List α) (hs1 : s1.length = L1.length) (hs2 : s2.length = L2.length) :
    (∃ r, inner s s1 s2 dirs1 dirs2 = .ok r ∧ r.length = LD.length ∧
      ∀ (i : Nat) (m : List Nat), LD[i]? = some m →
        r[i]? = some ((LK.map fun k =>
          coef L1 s1 (dirs1.map (joint D m K k)) * coef L2 s2 (dirs2.map (joint D m K k))).sum)) ∧
    ∀ m k, k.length = K.length → k ∉ LK → coef L1 s1 (dirs1.map (joint D m K k)) = 0 := by
  have hok1 := IterOk.of_list hu.toSized.fits' hL1
  refine ⟨inner_ok hu hz2 hi1 hi2 hsf hzD hok1 (IterOk.of_list hz2.fits' hL2) hLD hLK hs1 hs2, fun m k hk hn => ?_⟩
  refine coef_of_notMem (by omega) fun hmem => hn ?_
  rcases hLK with ⟨rfl, rfl⟩ | ⟨hne, hl⟩
  · simpa using hk
  · have hsub : ∀ x ∈ K, x ∈ dirs1 := fun x hx => ((hsf.memK x).1 hx).1
    have hle : K.length ≤ dirs1.length := ((hsf.incK : Inc K).nodup.subperm hsub).length_le
    have hokK := IterOk.of_list (hu.toSized.sub (by have := List.length_pos_iff.2 hne; omega) hle).fits' hl
    have h1 := inSet_along hi1 hsf.incK hne hsub ((hok1.mem _).1 hmem)
    have h2 : along dirs1 K (dirs1.map (joint D m K k)) = k := by
      rw [← along_self (hsf.incK : Inc K).nodup hk]
      apply List.map_congr_left
      intro x hx
      have hxd := List.idxOf_lt_length_of_mem (hsub x hx)
      have hxD : x ∉ D := by
        have := (hsf.memK x).1 hx
        intro hd
        rcases (hsf.memD x).1 hd with h | h
        · exact h.2 this.2
        · exact h.2 this.1
      rw [along_self (hsf.incK : Inc K).nodup hk, at', List.getD_eq_getElem?_getD, List.getElem?_map,
        List.getElem?_eq_getElem hxd]
      simp only [List.getElem_idxOf, Option.map_some, Option.getD_some, joint, if_neg hxD]
    rw [h2] at h1
    exact (hokK.mem _).2 h1

/-- Two factors on directions 0, 1, 3 and 1, 2: free directions 0, 2, 3, shared direction 1. -/
example : SharedFree [0, 1, 3] [1, 2] [0, 2, 3] [1] ∧ Usable .cross_nc [0, 1, 3].length 12 ∧ Sized .cross_nc [1, 2].length 12 ∧
    Sized .cross_nc [0, 2, 3].length 12 := by
  refine ⟨⟨by decide, by decide, fun x => ?_, fun x => ?_⟩, usable_small _ (by decide) (by decide) (by decide),
    (usable_small _ (by decide) (by decide) (by decide)).toSized,
    (usable_small _ (by decide) (by decide) (by decide)).toSized⟩
  · simp only [List.mem_cons, List.not_mem_nil, or_false]; omega
  · simp only [List.mem_cons, List.not_mem_nil, or_false]; omega

/-- C22, first part: contraction over all directions is the dot product of the coefficient vectors. -/
theorem C22_dot [NonUnitalNonAssocSemiring α] (s : IndexSet) (degree : Nat) (dirs : List Nat)
    (hu : Usable s dirs.length degree) (hi : dirs.Pairwise (· < ·)) (n : Nat) (hn : s.s_size dirs.length degree = .ok n)
    (s1 s2 : List α) (hs1 : s1.length = n) (hs2 : s2.length = n) :
    inner s s1 s2 dirs dirs = .ok [(List.zipWith (· * ·) s1 s2).sum] := by
  obtain ⟨L, hL⟩ := list_exists s hu.toSized
  have hok := IterOk.of_list hu.toSized.fits' hL
  have hsz := hok.size hu.toSized.dim_pos (by rw [hok.length]; exact hu.toSized.card_lt)
  rw [hn] at hsz
  obtain rfl : n = L.length := by simpa using hsz
  have hne : dirs ≠ [] := by
    have := hu.toSized.dim_pos
    rintro rfl
    simp at this
  have hsf : SharedFree dirs dirs [] dirs := ⟨by simp, hi, fun x => by simp, fun x => by simp⟩
  obtain ⟨r, e, hl, h⟩ := (C21_inner s degree dirs dirs [] dirs hu hu.toSized hi hi hsf (by simp) L L [[]] L hL hL
    (Or.inl ⟨rfl, rfl⟩) (Or.inr ⟨hne, hL⟩) s1 s2 hs1 hs2).1
  have h0 := h 0 [] rfl
  obtain ⟨x, rfl⟩ := List.length_eq_one_iff.1 hl
  rw [e]
  simp only [List.getElem?_cons_zero, Option.some.injEq] at h0
  rw [h0]
  congr 3
  apply List.ext_getElem
  · simp; omega
  · intro i h1 h2
    have hi' : i < L.length := by simpa using h1
    have hm := List.getElem?_eq_getElem hi'
    have hlen := inSet_length ((hok.mem _).1 (List.mem_of_getElem? hm))
    have : dirs.map (joint [] [] dirs L[i]) = L[i] := by
      rw [joint_along_right (by simp), along_self (hi : Inc dirs).nodup hlen]
    simp only [List.getElem_map, List.getElem_zipWith, this]
    rw [coef_of_getElem? hok.nodup hm, coef_of_getElem? hok.nodup hm]
    simp [show i < s1.length by omega, show i < s2.length by omega]

/-- C22, second part: contraction with no shared direction is the tensor product. -/
theorem C22_tensor [Semiring α] (s : IndexSet) (dim degree : Nat) (dirs1 dirs2 : List Nat)
    (hu : Usable s dirs1.length degree) (hz : Sized s dim degree) (hpart : Partition dim [dirs1, dirs2]) (n1 n2 : Nat)
    (hn1 : s.s_size dirs1.length degree = .ok n1) (hn2 : s.s_size dirs2.length degree = .ok n2) (s1 s2 : List α)
    (hs1 : s1.length = n1) (hs2 : s2.length = n2) :
    ∃ r, inner s s1 s2 dirs1 dirs2 = .ok r ∧ tensorize_vecs_dirs s [s1, s2] [dirs1, dirs2] = .ok r := by
  have hi1 := hpart.inc dirs1 (by simp)
  have hi2 := hpart.inc dirs2 (by simp)
  have hperm : (dirs1 ++ dirs2).Perm (List.range dim) := by simpa using hpart.perm
  have hlen : dirs1.length + dirs2.length = dim := by simpa using hperm.length_eq
  have hz2 : Sized s dirs2.length degree := hz.sub (by have := List.length_pos_iff.2 hi2.1; omega) (by omega)
  obtain ⟨L1, hL1⟩ := list_exists s hu.toSized
  obtain ⟨L2, hL2⟩ := list_exists s hz2
  obtain ⟨L, hL⟩ := list_exists s hz
  have hok1 := IterOk.of_list hu.toSized.fits' hL1
  have hok2 := IterOk.of_list hz2.fits' hL2
  have hok := IterOk.of_list hz.fits' hL
  have e1 := hok1.size hu.toSized.dim_pos (by rw [hok1.length]; exact hu.toSized.card_lt)
  have e2 := hok2.size hz2.dim_pos (by rw [hok2.length]; exact hz2.card_lt)
  rw [hn1] at e1
  rw [hn2] at e2
  obtain rfl : n1 = L1.length := by simpa using e1
  obtain rfl : n2 = L2.length := by simpa using e2
  have hnd : (dirs1 ++ dirs2).Nodup := hperm.nodup_iff.2 List.nodup_range
  rw [List.nodup_append] at hnd
  have hmem : ∀ x, x ∈ List.range dim ↔ x ∈ dirs1 ∨ x ∈ dirs2 := fun x => by rw [← hperm.mem_iff, List.mem_append]
  have hsf : SharedFree dirs1 dirs2 (List.range dim) [] := by
    refine ⟨List.pairwise_lt_range, by simp, fun x => ?_, fun x => ?_⟩
    · rw [hmem]
      have := hnd.2.2 x
      constructor
      · rintro (h | h)
        · exact Or.inl ⟨h, fun h' => this h x h' rfl⟩
        · exact Or.inr ⟨h, fun h' => hnd.2.2 x h' x h rfl⟩
      · rintro (h | h)
        · exact Or.inl h.1
        · exact Or.inr h.1
    · simp only [List.not_mem_nil, false_iff]
      rintro ⟨h, h'⟩
      exact hnd.2.2 x h x h' rfl
  have hDne : List.range dim ≠ [] := by
    have := hz.dim_pos
    simp; omega
  obtain ⟨r, e, hl, h⟩ := (C21_inner s degree dirs1 dirs2 (List.range dim) [] hu hz2 hi1.2 hi2.2 hsf
    (fun _ => by simpa using hz) L1 L2 L [[]] hL1 hL2 (Or.inr ⟨hDne, by simpa using hL⟩) (Or.inl ⟨rfl, rfl⟩) s1 s2 hs1 hs2).1
  have hlt1 : ∀ x ∈ dirs1, x < dim := fun x hx => by simpa using (hmem x).2 (Or.inl hx)
  have hlt2 : ∀ x ∈ dirs2, x < dim := fun x hx => by simpa using (hmem x).2 (Or.inr hx)
  obtain ⟨r', e', hl', h'⟩ := C17_tensorize_vec s dim degree ⟨dirs1, L1, s1⟩ [⟨dirs2, L2, s2⟩] hu hz (by simpa using hlen)
    (by
      intro b hb
      simp only [List.mem_cons, List.not_mem_nil, or_false] at hb
      rcases hb with rfl | rfl
      · exact ⟨⟨hL1, hs1⟩, dirs_of_increasing s hi1.1 hi1.2 hlt1⟩
      · exact ⟨⟨hL2, hs2⟩, dirs_of_increasing s hi2.1 hi2.2 hlt2⟩) L hL
  refine ⟨r, e, ?_⟩
  have : r = r' := by
    apply List.ext_getElem?
    intro i
    by_cases hi : i < L.length
    · have hm := List.getElem?_eq_getElem hi
      rw [h i _ hm, h' i _ hm]
      simp only [List.map_cons, List.map_nil, List.sum_cons, List.sum_nil, add_zero, List.prod_cons, List.prod_nil,
        mul_one, Block.coef]
      rw [joint_along_left (fun x hx => (hmem x).2 (Or.inl hx)), joint_along_left (fun x hx => (hmem x).2 (Or.inr hx)),
        along_range hlt1, along_range hlt2]
    · rw [List.getElem?_eq_none (by omega), List.getElem?_eq_none (by omega)]
  subst this
  exact e'

example : Partition 3 [[1], [0, 2]] ∧ Usable .triangle [1].length 9 ∧ Sized .triangle 3 9 :=
  ⟨⟨by decide, by decide⟩, usable_small _ (by decide) (by decide) (by decide),
    (usable_small _ (by decide) (by decide) (by decide)).toSized⟩

/-- C22, third part: contraction with the constant series 1 along some directions is projection on the others. -/
theorem C22_project [Semiring α] (s : IndexSet) (dim degree : Nat) (hu : Usable s dim degree) (K D : List Nat)
    (hK : K ≠ []) (hD : D ≠ []) (hiK : K.Pairwise (· < ·)) (hiD : D.Pairwise (· < ·))
    (hcompl : ∀ x, x < dim ↔ x ∈ D ∨ x ∈ K) (hdisj : ∀ x ∈ D, x ∉ K) (n nK : Nat) (hn : s.s_size dim degree = .ok n)
    (hnK : s.s_size K.length degree = .ok nK) (v : List α) (hv : v.length = n) :
    ∃ r, inner s v (1 :: List.replicate (nK - 1) 0) (List.range dim) K = .ok r ∧ project_vec s v dim D = .ok r := by
  have hltK : ∀ x ∈ K, x < dim := fun x hx => (hcompl x).2 (Or.inr hx)
  have hltD : ∀ x ∈ D, x < dim := fun x hx => (hcompl x).2 (Or.inl hx)
  have dK := dirs_of_increasing s hK hiK hltK
  have dD := dirs_of_increasing s hD hiD hltD
  have hzK : Sized s K.length degree := hu.toSized.sub dK.length_pos dK.length_le
  have hzD : Sized s D.length degree := hu.toSized.sub dD.length_pos dD.length_le
  obtain ⟨L, hL⟩ := list_exists s hu.toSized
  obtain ⟨LK, hLK⟩ := list_exists s hzK
  have hok := IterOk.of_list hu.toSized.fits' hL
  have hokK := IterOk.of_list hzK.fits' hLK
  have e1 := hok.size hu.toSized.dim_pos (by rw [hok.length]; exact hu.toSized.card_lt)
  have e2 := hokK.size hzK.dim_pos (by rw [hokK.length]; exact hzK.card_lt)
  rw [hn] at e1
  rw [hnK] at e2
  obtain rfl : n = L.length := by simpa using e1
  obtain rfl : nK = LK.length := by simpa using e2
  have hposK := List.length_pos_iff.2 hokK.runs.ne_nil
  obtain ⟨LD, p, h1, h2, h3, h4⟩ := C15_project_vec s dim degree hu D dD L hL v hv
  have hsf : SharedFree (List.range dim) K D K := by
    refine ⟨hiD, hiK, fun x => ?_, fun x => ?_⟩
    · rw [List.mem_range, hcompl]
      constructor
      · intro h
        exact Or.inl ⟨Or.inl h, hdisj x h⟩
      · rintro (h | h)
        · exact h.1.resolve_right h.2
        · exact absurd (Or.inr h.1) h.2
    · rw [List.mem_range]
      exact ⟨fun h => ⟨hltK x h, h⟩, fun h => h.2⟩
  obtain ⟨r, e, hl, h⟩ := (C21_inner s degree (List.range dim) K D K (by simpa using hu) hzK List.pairwise_lt_range hiK hsf
    (fun _ => hzD) L LK LD LK (by simpa using hL) hLK (Or.inr ⟨hD, h1⟩) (Or.inr ⟨hK, hLK⟩) v
    (1 :: List.replicate (LK.length - 1) 0) hv (by simp; omega)).1
  refine ⟨r, e, ?_⟩
  have : r = p := by
    apply List.ext_getElem?
    intro i
    by_cases hi : i < LD.length
    · have hm := List.getElem?_eq_getElem hi
      rw [h i _ hm, h4 i _ hm]
      congr 1
      obtain ⟨t, ht⟩ := hokK.runs.head
      have hnd := hokK.nodup
      have hKK : ∀ k, k ∈ LK → K.map (joint D LD[i] K k) = k := by
        intro k hk
        rw [joint_along_right (fun x hx hd => hdisj x hd hx),
          along_self (hiK : Inc K).nodup (inSet_length ((hokK.mem _).1 hk))]
      have hrest : ∀ k ∈ t, coef L v ((List.range dim).map (joint D LD[i] K k)) *
          coef LK (1 :: List.replicate (LK.length - 1) 0) (K.map (joint D LD[i] K k)) = 0 := by
        intro k hk
        have hkL : k ∈ LK := by rw [ht]; simp [hk]
        rw [hKK k hkL]
        obtain ⟨j, hj, hjk⟩ := List.getElem_of_mem hk
        have hidx : LK.idxOf k = j + 1 := idxOf_of_getElem? hnd (by rw [ht]; simp [hj, hjk])
        rw [coef.eq_def LK, hidx, List.getD_cons_succ, List.getD_eq_getElem?_getD]
        have : ((List.replicate (LK.length - 1) (0 : α))[j]?).getD 0 = 0 := by
          rw [List.getElem?_replicate]
          by_cases hc : j < LK.length - 1
          · rw [if_pos hc]; rfl
          · rw [if_neg hc]; rfl
        rw [this, mul_zero]
      have hz0 : List.replicate K.length 0 ∈ LK := hokK.idxOf_zero.2
      rw [show (LK.map fun k => coef L v ((List.range dim).map (joint D LD[i] K k)) *
          coef LK (1 :: List.replicate (LK.length - 1) 0) (K.map (joint D LD[i] K k))).sum =
          coef L v ((List.range dim).map (joint D LD[i] K (List.replicate K.length 0))) *
          coef LK (1 :: List.replicate (LK.length - 1) 0) (K.map (joint D LD[i] K (List.replicate K.length 0))) by
        conv_lhs => rw [show List.map (fun k => coef L v ((List.range dim).map (joint D LD[i] K k)) *
          coef LK (1 :: List.replicate (LK.length - 1) 0) (K.map (joint D LD[i] K k))) LK =
          List.map (fun k => coef L v ((List.range dim).map (joint D LD[i] K k)) *
          coef LK (1 :: List.replicate (LK.length - 1) 0) (K.map (joint D LD[i] K k))) (List.replicate K.length 0 :: t) from
            congrArg _ ht]
        rw [List.map_cons, List.sum_cons, List.sum_eq_zero, add_zero]
        intro y hy
        obtain ⟨k, hk, rfl⟩ := List.mem_map.1 hy
        exact hrest k hk]
      rw [hKK _ hz0, coef_zero hokK, List.getD_cons_zero, mul_one]
      congr 1
      apply List.map_congr_left
      intro x _
      rw [joint]
      by_cases hx : x ∈ D
      · rw [if_pos hx]
      · have hl' := inSet_length (((IterOk.of_list hzD.fits' h1).mem _).1 (List.mem_of_getElem? hm))
        rw [if_neg hx, at'_of_notMem hx (by omega), at', List.getD_eq_getElem?_getD, List.getElem?_replicate]
        by_cases hc : K.idxOf x < K.length
        · rw [if_pos hc]; rfl
        · rw [if_neg hc]; rfl
    · rw [List.getElem?_eq_none (by omega), List.getElem?_eq_none (by omega)]
  subst this
  exact h2

example : (∀ x, x < 3 ↔ x ∈ [0, 2] ∨ x ∈ [1]) ∧ (∀ x ∈ [0, 2], x ∉ [1]) := by
  refine ⟨fun x => ?_, by decide⟩
  simp only [List.mem_cons, List.not_mem_nil, or_false]
  omega

/-- C23. Contraction is symmetric. -/
theorem C23_inner_symm [NonUnitalNonAssocCommSemiring α] (s : IndexSet) (degree : Nat) (dirs1 dirs2 D K : List Nat)
    (hu1 : Usable s dirs1.length degree) (hu2 : Usable s dirs2.length degree) (hi1 : dirs1.Pairwise (· < ·))
    (hi2 : dirs2.Pairwise (· < ·)) (hsf : SharedFree dirs1 dirs2 D K) (hzD : D ≠ [] → Sized s D.length degree)
    (n1 n2 : Nat) (hn1 : s.s_size dirs1.length degree = .ok n1) (hn2 : s.s_size dirs2.length degree = .ok n2)
    (s1 s2 : List α) (hs1 : s1.length = n1) (hs2 : s2.length = n2) :
    ∃ r, inner s s1 s2 dirs1 dirs2 = .ok r ∧ inner s s2 s1 dirs2 dirs1 = .ok r := by
  obtain ⟨L1, hL1⟩ := list_exists s hu1.toSized
  obtain ⟨L2, hL2⟩ := list_exists s hu2.toSized
  have hok1 := IterOk.of_list hu1.toSized.fits' hL1
  have hok2 := IterOk.of_list hu2.toSized.fits' hL2
  have e1 := hok1.size hu1.toSized.dim_pos (by rw [hok1.length]; exact hu1.toSized.card_lt)
  have e2 := hok2.size hu2.toSized.dim_pos (by rw [hok2.length]; exact hu2.toSized.card_lt)
  rw [hn1] at e1
  rw [hn2] at e2
  obtain rfl : n1 = L1.length := by simpa using e1
  obtain rfl : n2 = L2.length := by simpa using e2
  have hsf' : SharedFree dirs2 dirs1 D K :=
    ⟨hsf.incD, hsf.incK, fun x => by rw [hsf.memD]; exact Or.comm, fun x => by rw [hsf.memK]; exact And.comm⟩
  have hlist : ∀ d : List Nat, (d ≠ [] → Sized s d.length degree) → ∃ L, Listing s degree d L := by
    intro d hd
    by_cases h : d = []
    · exact ⟨[[]], Or.inl ⟨h, rfl⟩⟩
    · obtain ⟨L, hL⟩ := list_exists s (hd h)
      exact ⟨L, Or.inr ⟨h, hL⟩⟩
  have hKle : K.length ≤ dirs1.length :=
    ((hsf.incK : Inc K).nodup.subperm (fun x hx => ((hsf.memK x).1 hx).1)).length_le
  obtain ⟨LD, hLD⟩ := hlist D hzD
  obtain ⟨LK, hLK⟩ := hlist K (fun h => hu1.toSized.sub (by have := List.length_pos_iff.2 h; omega) hKle)
  obtain ⟨r, e, hl, h⟩ := (C21_inner s degree dirs1 dirs2 D K hu1 hu2.toSized hi1 hi2 hsf hzD L1 L2 LD LK hL1 hL2 hLD hLK
    s1 s2 hs1 hs2).1
  obtain ⟨r', e', hl', h'⟩ := (C21_inner s degree dirs2 dirs1 D K hu2 hu1.toSized hi2 hi1 hsf' hzD L2 L1 LD LK hL2 hL1 hLD
    hLK s2 s1 hs2 hs1).1
  refine ⟨r, e, ?_⟩
  have : r = r' := by
    apply List.ext_getElem?
    intro i
    by_cases hi : i < LD.length
    · have hm := List.getElem?_eq_getElem hi
      rw [h i _ hm, h' i _ hm]
      congr 2
      apply List.map_congr_left
      intro k _
      exact mul_comm _ _
    · rw [List.getElem?_eq_none (by omega), List.getElem?_eq_none (by omega)]
  subst this
  exact e'

end Hermipy.Props
