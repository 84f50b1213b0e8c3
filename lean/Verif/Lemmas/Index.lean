import Verif.Lemmas.Count

/-! # Closed-form indices: triangle and cube -/

namespace Hermipy

theorem Runs.rank {inc : IVec → Out (Bool × IVec)} {m : IVec} {L : List IVec} (f : IVec → Nat) (h : Runs inc m L)
    (hf : ∀ x ∈ L, ∀ x', inc x = .ok (false, x') → f x' = f x + 1) :
    ∀ k x, L[k]? = some x → f x = f m + k := by
  induction h with
  | last e =>
    intro k x hk
    cases k with
    | zero => simp at hk; simp [hk]
    | succ k => simp at hk
  | @next m m' L e hr ih =>
    intro k x hk
    cases k with
    | zero => simp at hk; simp [hk]
    | succ k =>
      simp at hk
      have h1 := ih (fun x hx => hf x (by simp [hx])) k x hk
      have h2 := hf m (by simp) m' e
      omega

/-! ## Triangle -/

/-- Closed-form rank, seen from position `i` with running sum `s`. -/
def triRank : Nat → Nat → IVec → Nat
  | _, _, [] => 0
  | i, s, x :: xs => Nat.choose (i + (s + x)) (i + 1) + triRank (i + 1) (s + x) xs

theorem triRank_zeros : ∀ (k i a : Nat) (r : IVec),
    Nat.choose (i + a) i + triRank i a (List.replicate k 0 ++ r) = Nat.choose (i + k + a) (i + k) + triRank (i + k) a r
  | 0, i, a, r => by simp
  | k + 1, i, a, r => by
    have := triRank_zeros k (i + 1) a r
    rw [List.replicate_succ, List.cons_append, triRank, Nat.add_zero, ← Nat.add_assoc, ← Nat.choose_succ_succ,
      show (i + a).succ = i + 1 + a by omega, show i.succ = i + 1 from rfl, this]
    rw [show i + 1 + k = i + (k + 1) by omega]

theorem triRank_zero (k i : Nat) (r : IVec) : triRank i 0 (List.replicate k 0 ++ r) = triRank (i + k) 0 r := by
  have := triRank_zeros k i 0 r
  simpa using this

theorem triRank_next {m m' : IVec} {degree : Nat} (h : Triangle.s_increment m degree = .ok (false, m')) :
    triRank 0 0 m' = triRank 0 0 m + 1 := by
  match m with
  | [] => simp [Triangle.s_increment] at h
  | a :: t =>
    rcases zeros_or_first t with ht | ⟨k, b, r, rfl⟩
    · rw [ht, Triangle.inc_end] at h
      split at h
      · simp at h
      · simp at h
        subst h
        rw [ht, triRank_zero]
        generalize t.length = k
        have := triRank_zeros k 1 a []
        simp only [List.append_nil, triRank] at this ⊢
        simp at this ⊢
        rw [show k + (a + 1) = 1 + k + a by omega, show k + 1 = 1 + k by omega]
        omega
    · rw [Triangle.inc_mid] at h
      simp at h
      subst h
      rw [triRank_zero]
      have := triRank_zeros k 1 a ((b + 1) :: r)
      simp only [triRank] at this ⊢
      simp at this ⊢
      rw [show a + 1 + b = a + (b + 1) by omega, show k + (a + 1) = 1 + k + a by omega, show k + 1 = 1 + k by omega]
      omega

theorem indexLoop_eq : ∀ (m : IVec) (i s r : Nat), r + triRank i s m < u32 →
    Triangle.indexLoop i s r m = .ok (r + triRank i s m)
  | [], _, _, _, _ => by simp [Triangle.indexLoop, triRank]
  | x :: xs, i, s, r, h => by
    rw [Triangle.indexLoop, triRank]
    rw [triRank] at h
    split
    · have h1 : Nat.choose (i + (s + x)) (i + 1) < u32 := by omega
      have h2 : wrap32 (r + Nat.choose (i + (s + x)) (i + 1)) = r + Nat.choose (i + (s + x)) (i + 1) :=
        Nat.mod_eq_of_lt (by omega)
      simp only [toU32, h1, if_true, Out.ok_bind, h2]
      rw [indexLoop_eq xs _ _ _ (by omega)]
      congr 1; omega
    · have h0 : s + x = 0 := by omega
      rw [indexLoop_eq xs _ _ _ (by omega), h0]
      simp

theorem IterOk.index_triangle {dim degree : Nat} {L : List IVec} (h : IterOk .triangle dim degree L) {k : Nat} {m : IVec}
    (hk : L[k]? = some m) (hfit : k < u32) : Triangle.s_index m = .ok k := by
  have h1 := h.runs.rank (triRank 0 0) (fun x _ x' hx => triRank_next hx) k m hk
  have h0 : triRank 0 0 (List.replicate dim 0) = 0 := by
    have := triRank_zero dim 0 []
    simpa [triRank] using this
  rw [h0, Nat.zero_add] at h1
  rw [Triangle.s_index, indexLoop_eq m 0 0 0 (by omega)]
  simp [h1]

/-! ## Cube -/

/-- Mixed-radix value of the entries other than position `j`. -/
def digV (M j : Nat) : Nat → Nat → IVec → Nat
  | _, _, [] => 0
  | i, fac, x :: xs =>
    if i = j then digV M j (i + 1) fac xs
    else fac * x + digV M j (i + 1) (fac * (if i < j then M + 1 else M)) xs

/-- Product of the bases of the positions `≥ i` other than `j`, for `k` positions. -/
def radix (M j : Nat) : Nat → Nat → Nat
  | _, 0 => 1
  | i, k + 1 => (if i = j then 1 else if i < j then M + 1 else M) * radix M j (i + 1) k

theorem radix_after {M j : Nat} : ∀ {k i : Nat}, j < i → radix M j i k = M ^ k
  | 0, _, _ => rfl
  | k + 1, i, h => by
    rw [radix, if_neg (by omega), if_neg (by omega), radix_after (by omega), Nat.pow_succ, Nat.mul_comm]

theorem radix_eq {M j : Nat} : ∀ {k i : Nat}, i ≤ j → j < i + k → radix M j i k = (M + 1) ^ (j - i) * M ^ (i + k - 1 - j)
  | 0, _, h1, h2 => by omega
  | k + 1, i, h1, h2 => by
    by_cases hij : i = j
    · subst hij
      rw [radix, if_pos rfl, radix_after (by omega)]
      simp
    · rw [radix, if_neg hij, if_pos (by omega), radix_eq (by omega) (by omega),
        show j - i = (j - (i + 1)) + 1 by omega, Nat.pow_succ, show i + (k + 1) - 1 - j = i + 1 + k - 1 - j by omega]
      ring

theorem bump_true {M j : Nat} : ∀ {m : IVec} {i fac : Nat}, Good M j i (List.replicate m.length 1) m →
    (Cube.bump M j i m).1 = true → digV M j i fac (Cube.bump M j i m).2 = digV M j i fac m + fac
  | [], _, _, _, h => by simp [Cube.bump] at h
  | x :: xs, i, fac, hg, h => by
    simp only [List.length_cons, List.replicate_succ, Good, Nat.mul_one] at hg
    rw [Cube.bump] at h ⊢
    by_cases hij : i = j
    · subst hij
      simp only [if_true] at hg
      rw [if_neg (by simp; omega)] at h ⊢
      simp only at h ⊢
      simp only [digV, if_true]
      exact bump_true hg.2 h
    · rw [if_neg hij] at hg
      by_cases hc : x + 1 < M + (if i < j then 1 else 0)
      · rw [if_pos hc]
        simp only [digV, if_neg hij]
        rw [Nat.mul_add]; omega
      · rw [if_neg hc] at h ⊢
        simp only at h ⊢
        simp only [digV, hij, ne_eq, not_false_eq_true, if_true, if_false]
        rw [bump_true hg.2 h]
        have hb : (if i < j then M + 1 else M) = x + 1 := by
          have := hg.1
          split at this <;> rename_i hlt <;> simp only [hlt, if_true, if_false] at * <;> omega
        rw [hb]
        rw [Nat.mul_add]; omega

theorem bump_false {M j : Nat} : ∀ {m : IVec} {i fac : Nat}, Good M j i (List.replicate m.length 1) m →
    (Cube.bump M j i m).1 = false → digV M j i fac m + fac = fac * radix M j i m.length
  | [], _, _, _, _ => by simp [digV, radix]
  | x :: xs, i, fac, hg, h => by
    simp only [List.length_cons, List.replicate_succ, Good, Nat.mul_one] at hg
    rw [Cube.bump] at h
    by_cases hij : i = j
    · subst hij
      simp only [if_true] at hg
      rw [if_neg (by simp; omega)] at h
      simp only at h
      simp only [digV, if_true, List.length_cons, radix, Nat.one_mul]
      exact bump_false hg.2 h
    · rw [if_neg hij] at hg
      by_cases hc : x + 1 < M + (if i < j then 1 else 0)
      · rw [if_pos hc] at h
        simp at h
      · rw [if_neg hc] at h
        simp only at h
        have hb : (if i < j then M + 1 else M) = x + 1 := by
          have := hg.1
          split at this <;> rename_i hlt <;> simp only [hlt, if_true, if_false] at * <;> omega
        simp only [digV, if_neg hij, List.length_cons, radix, hb]
        have := bump_false (fac := fac * (x + 1)) hg.2 h
        rw [← Nat.mul_assoc, ← this, Nat.mul_add]; omega

/-- Offset of the block `(M, j)` inside level `M`. -/
def blk (M n : Nat) : Nat → Nat
  | 0 => 0
  | j + 1 => blk M n j + M ^ (n - j - 1) * (M + 1) ^ j

theorem blk_succ (M n : Nat) : ∀ j, j ≤ n → blk M (n + 1) j = M * blk M n j
  | 0, _ => by simp [blk]
  | j + 1, h => by
    rw [blk, blk, blk_succ M n j (by omega), show n + 1 - j - 1 = (n - j - 1) + 1 by omega, Nat.pow_succ]
    ring

theorem blk_full (M : Nat) : ∀ n, M ^ n + blk M n n = (M + 1) ^ n
  | 0 => by simp [blk]
  | n + 1 => by
    have := blk_full M n
    rw [blk, blk_succ M n n (le_refl _), Nat.pow_succ (M + 1), ← this]
    simp
    ring

/-- Closed-form rank in the cube listing. -/
def cubeRank (m : IVec) : Nat :=
  let t := top (List.replicate m.length 1) m
  t.1 ^ m.length + blk t.1 m.length t.2 + digV t.1 t.2 0 1 m

theorem digV_zeros (M j : Nat) : ∀ (k i fac : Nat), digV M j i fac (List.replicate k 0) = 0
  | 0, _, _ => rfl
  | k + 1, i, fac => by
    rw [List.replicate_succ, digV, digV_zeros, digV_zeros]; simp

theorem digV_single (M c : Nat) : ∀ (j i k fac : Nat), digV M (i + j) i fac (List.replicate j 0 ++ c :: List.replicate k 0) = 0
  | 0, i, k, fac => by simp [digV, digV_zeros]
  | j + 1, i, k, fac => by
    rw [List.replicate_succ, List.cons_append, digV, if_neg (by omega)]
    have := digV_single M c j (i + 1) k
    rw [show i + 1 + j = i + (j + 1) by omega] at this
    rw [this]; simp

theorem cubeRank_single {n j c : Nat} (hj : j < n) (hc : 0 < c) :
    cubeRank (single n j c) = c ^ n + blk c n j := by
  have hl : (single n j c).length = n := single_length hj
  have hg : Good c j 0 (List.replicate n 1) (single n j c) := by
    have := good_single' (fs := List.replicate n 1) (M := c) (j := j) (c := c) (f := 1)
      (by rw [List.getElem?_eq_getElem (by simpa using hj)]; simp) (by simp) hc
    simpa using this
  have ht : top (List.replicate n 1) (single n j c) = (c, j) := top_eq hg (by omega)
  simp only [cubeRank, hl, ht]
  have := digV_single c c j 0 (n - 1 - j) 1
  rw [Nat.zero_add] at this
  rw [single, this]
  rfl

theorem cubeRank_next {m m' : IVec} {degree : Nat} (hm : m ≠ [])
    (h : Cube.s_increment m degree = .ok (false, m')) : cubeRank m' = cubeRank m + 1 := by
  have hg := top_good (fs := List.replicate m.length 1) (m := m) (by simp) hm
  have hsp := bump_spec (fs := List.replicate m.length 1) (by simp) hg.1
  rw [← Cube.bump_eq] at hsp
  have hrank : cubeRank m = (top (List.replicate m.length 1) m).1 ^ m.length +
    blk (top (List.replicate m.length 1) m).1 m.length (top (List.replicate m.length 1) m).2 +
    digV (top (List.replicate m.length 1) m).1 (top (List.replicate m.length 1) m).2 0 1 m := rfl
  rw [Cube.s_increment] at h
  simp only [Cube.scanMax_eq] at h
  simp only [top] at hg hsp hrank
  obtain ⟨M, j, hMj⟩ : ∃ M j, Rectangle.scanMax (List.replicate m.length 1) m 0 0 0 = (M, j) := ⟨_, _, rfl⟩
  simp only [hMj] at hg hsp hrank h
  have hn : 0 < m.length := List.length_pos_iff.2 hm
  rcases hsp with ⟨e, g, -, -⟩ | ⟨e, -, form⟩
  · rw [if_pos e] at h
    simp at h
    subst h
    have hlen : (Cube.bump M j 0 m).2.length = m.length := by simpa using g.length
    have ht : top (List.replicate m.length 1) (Cube.bump M j 0 m).2 = (M, j) := top_eq g (by omega)
    rw [hrank, cubeRank]
    simp only [hlen, ht]
    rw [bump_true hg.1 e]
    omega
  · have hb := bump_false (fac := 1) hg.1 e
    rw [Nat.one_mul, radix_eq (by omega) (by omega)] at hb
    simp only [Nat.sub_zero, Nat.zero_add] at hb
    obtain ⟨u, c, s, fu, f, fs', hmu, hfu, l1, l2, hcf⟩ := good_get hg.1 (by omega) (by omega)
    simp only [Nat.sub_zero] at l1 l2
    have hform : (Cube.bump M j 0 m).2 = single m.length j c := by
      rw [form, ← l1]
      exact mapIdx_single hmu rfl
    rw [if_neg (by simp [e]), if_neg (by omega), hform] at h
    by_cases hjl : j = m.length - 1
    · rw [if_pos hjl] at h
      split at h
      · simp at h
      · rw [wr_single_self hg.2] at h
        simp only [Out.ok_bind] at h
        rw [wr_zeros hn] at h
        simp at h
        subst h
        rw [cubeRank_single hn (by omega), hrank]
        have hf := blk_full M m.length
        obtain ⟨n, hn'⟩ : ∃ n, m.length = n + 1 := ⟨m.length - 1, by omega⟩
        obtain rfl : n = j := by omega
        rw [hn'] at hf hb ⊢
        simp only [blk, show n + 1 - 1 - n = 0 by omega, show n + 1 - n - 1 = 0 by omega, Nat.pow_zero, Nat.mul_one,
          Nat.one_mul] at hf hb ⊢
        omega
    · rw [if_neg hjl] at h
      have hMpos : 0 < M := by
        by_contra h0
        have hM0 : M = 0 := by omega
        exact good_zero (hM0 ▸ hg.1) (by omega) (by omega)
      rw [wr_single_self hg.2] at h
      simp only [Out.ok_bind] at h
      rw [wr_zeros (by omega)] at h
      simp at h
      subst h
      rw [cubeRank_single (by omega) hMpos, hrank, blk]
      rw [show m.length - j - 1 = m.length - 1 - j by omega, Nat.mul_comm (M ^ _)]
      omega

theorem blockLoop_eq (M n : Nat) : ∀ (k i r : Nat), r + (blk M n (i + k) - blk M n i) < u32 →
    Cube.blockLoop M n k i r = .ok (r + (blk M n (i + k) - blk M n i))
  | 0, i, r, _ => by simp [Cube.blockLoop]
  | k + 1, i, r, h => by
    have hmono : ∀ (a b : Nat), blk M n a ≤ blk M n (a + b) := by
      intro a b
      induction b with
      | zero => simp
      | succ b ih => rw [← Nat.add_assoc, blk]; omega
    have h1 := hmono (i + 1) k
    have h2 : blk M n (i + 1) = blk M n i + M ^ (n - i - 1) * (M + 1) ^ i := rfl
    rw [show i + (k + 1) = i + 1 + k by omega] at h ⊢
    rw [Cube.blockLoop]
    have h3 : r + M ^ (n - i - 1) * (M + 1) ^ i < u32 := by omega
    simp only [toU32, h3, if_true, Out.ok_bind]
    rw [blockLoop_eq M n k (i + 1) _ (by omega)]
    congr 1; omega

theorem digitLoop_eq (M j : Nat) : ∀ (m : IVec) (i r f R F : Nat), r < u32 → r = R % u32 → f % u32 = F % u32 →
    Cube.digitLoop M j i r f m = (R + digV M j i F m) % u32
  | [], i, r, f, R, F, hr, h1, h2 => by simp [Cube.digitLoop, digV, h1]
  | x :: xs, i, r, f, R, F, hr, h1, h2 => by
    rw [Cube.digitLoop, digV]
    split
    · exact digitLoop_eq M j xs (i + 1) r f R F hr h1 h2
    · rw [digitLoop_eq M j xs (i + 1) _ _ (R + F * x) (F * (if i < j then M + 1 else M)) ?_ ?_ ?_]
      · rw [Nat.add_assoc]
      · exact Nat.mod_lt _ (by decide)
      · rw [wrap32, h1]
        exact Nat.ModEq.add (Nat.mod_modEq R u32) (Nat.ModEq.mul_right x h2)
      · rw [wrap32, Nat.mod_mod]
        exact Nat.ModEq.mul_right _ h2

theorem IterOk.index_cube {dim degree : Nat} (hd : 1 ≤ dim) {L : List IVec} (h : IterOk .cube dim degree L) {k : Nat}
    {m : IVec} (hk : L[k]? = some m) (hfit : k < u32) (hm : m ≠ List.replicate dim 0) : Cube.s_index m = .ok k := by
  have hmem : ∀ x ∈ L, x.length = dim := fun x hx => ((h.mem x).1 hx).1
  have hml : m.length = dim := hmem m (List.mem_of_getElem? hk)
  have hmne : m ≠ [] := by rw [← List.length_pos_iff]; omega
  have h1 := h.runs.rank cubeRank (fun x hx x' hx' => cubeRank_next (degree := degree)
    (by have := hmem x hx; rw [← List.length_pos_iff]; omega) hx') k m hk
  have h0 : cubeRank (List.replicate dim 0) = 0 := by
    have hg := top_good (fs := List.replicate dim 1) (m := List.replicate dim 0) (by simp) (by simp; omega)
    have hz1 : (top (List.replicate dim 1) (List.replicate dim 0)).1 = 0 := by
      obtain ⟨u, c, s, fu, f, fs', h3, h4, l1, l2, h5⟩ := good_get hg.1 (by omega) (by omega)
      have : c ∈ List.replicate dim 0 := by rw [h3]; simp
      rw [List.mem_replicate] at this
      rw [← h5, this.2]; simp
    have hblk : ∀ n j, j < n → blk 0 n j = 0 := by
      intro n j
      induction j with
      | zero => simp [blk]
      | succ j ih =>
        intro hj
        rw [blk, ih (by omega), Nat.zero_pow (by omega)]; simp
    have hlt := hg.2
    simp only [List.length_replicate] at hlt
    simp only [cubeRank, List.length_replicate, hz1, digV_zeros, hblk _ _ hlt]
    simp; omega
  rw [h0, Nat.zero_add] at h1
  have hg := top_good (fs := List.replicate m.length 1) (m := m) (by simp) hmne
  have hMpos : 0 < (top (List.replicate m.length 1) m).1 := by
    by_contra hcon
    have hM0 : (top (List.replicate m.length 1) m).1 = 0 := by omega
    apply hm
    have hle := (allLe_iff (d := 0) hg.1 hg.2).2 (by omega)
    rw [allLe_ones] at hle
    rw [List.eq_replicate_iff]
    exact ⟨hml, fun b hb => by have := hle.2 b hb; omega⟩
  rw [Cube.s_index]
  simp only [Cube.scanMax_eq]
  rw [cubeRank] at h1
  simp only [top] at h1 hMpos
  generalize Rectangle.scanMax (List.replicate m.length 1) m 0 0 0 = t at *
  obtain ⟨M, j⟩ := t
  simp only at *
  have hpow : 0 < M ^ m.length := Nat.pow_pos hMpos
  have hlt : M ^ m.length - 1 < u32 := by omega
  simp only [Cube.startIndex, if_neg (show ¬ M ^ m.length = 0 by omega), toU32, hlt, if_true, Out.ok_bind]
  have hb := blockLoop_eq M m.length j 0 (M ^ m.length - 1)
  simp only [Nat.zero_add, blk, Nat.sub_zero] at hb
  rw [hb (by omega)]
  simp only [Out.ok_bind]
  congr 1
  rw [digitLoop_eq M j m 0 _ 1 (M ^ m.length + blk M m.length j) 1 (by exact Nat.mod_lt _ (by decide)) (by
    rw [wrap32]; congr 1; omega) rfl, h1, Nat.mod_eq_of_lt hfit]

/-- At the zero multi-index the cube formula converts a negative floating-point number to an unsigned integer. -/
theorem cube_index_zero (dim : Nat) (hd : 1 ≤ dim) : Cube.s_index (List.replicate dim 0) = .ub := by
  have hg := top_good (fs := List.replicate dim 1) (m := List.replicate dim 0) (by simp) (by simp; omega)
  have hz1 : (top (List.replicate dim 1) (List.replicate dim 0)).1 = 0 := by
    obtain ⟨u, c, s, fu, f, fs', h3, h4, l1, l2, h5⟩ := good_get hg.1 (by omega) (by omega)
    have : c ∈ List.replicate dim 0 := by rw [h3]; simp
    rw [List.mem_replicate] at this
    rw [← h5, this.2]; simp
  simp only [top] at hz1
  rw [Cube.s_index]
  simp only [Cube.scanMax_eq, List.length_replicate, hz1, Cube.startIndex, Nat.zero_pow (by omega : 0 < dim), if_true]
  rfl

end Hermipy
