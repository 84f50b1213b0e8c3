import Verif.Spec.Cache
import Mathlib.Data.Nat.Digits.Lemmas
import Mathlib.Data.Rat.Lemmas
import Mathlib.Tactic.IntervalCases

namespace Hermipy
open Spec Cache

theorem encode_inj {s t : Str} (h : encode s = encode t) : s = t := by
  have := String.toByteArray_inj.1 h
  simpa using congrArg String.toList this

theorem digitChar_ne_dash {d : ℕ} (h : d < 10) : Nat.digitChar d ≠ '-' := by interval_cases d <;> decide
theorem digitChar_inj {d e : ℕ} (h : d < 10) (h' : e < 10) (he : Nat.digitChar d = Nat.digitChar e) : d = e := by
  interval_cases d <;> interval_cases e <;> first | rfl | (exfalso; revert he; decide)

theorem digitMap_inj : ∀ {a b : List ℕ}, (∀ x ∈ a, x < 10) → (∀ x ∈ b, x < 10) → a.map Nat.digitChar = b.map Nat.digitChar → a = b
  | [], [], _, _, _ => rfl
  | [], y :: b, _, _, h => by simp at h
  | x :: a, [], _, _, h => by simp at h
  | x :: a, y :: b, ha, hb, h => by
    simp only [List.map_cons, List.cons.injEq] at h
    rw [digitChar_inj (ha x (by simp)) (hb y (by simp)) h.1, digitMap_inj (fun z hz => ha z (by simp [hz])) (fun z hz => hb z (by simp [hz])) h.2]

/-- The digits of a natural number as printed. -/
def natDigits (n : ℕ) : Str := if n = 0 then ['0'] else ((Nat.digits 10 n).reverse.map Nat.digitChar)

theorem natDigits_inj {m n : ℕ} (h : natDigits m = natDigits n) : m = n := by
  have lt : ∀ k, ∀ x ∈ (Nat.digits 10 k).reverse, x < 10 := fun k x hx => Nat.digits_lt_base (by norm_num) (List.mem_reverse.1 hx)
  have zero : ∀ k, k ≠ 0 → ((Nat.digits 10 k).reverse.map Nat.digitChar) ≠ ['0'] := by
    intro k hk e
    have : (['0'] : Str) = [0].map Nat.digitChar := by decide
    rw [this] at e
    have e := digitMap_inj (lt k) (by simp) e
    have e : Nat.digits 10 k = [0] := by simpa using congrArg List.reverse e
    have := Nat.getLast_digit_ne_zero 10 hk
    simp [e] at this
  rw [natDigits, natDigits] at h
  split at h
  · split at h
    · omega
    · rename_i h2; exact absurd h.symm (zero n h2)
  · split at h
    · rename_i h1 _; exact absurd h (zero m h1)
    · have := digitMap_inj (lt m) (lt n) h
      exact Nat.digits_inj_iff.1 (List.reverse_inj.1 this)

theorem natDigits_head (n : ℕ) : (natDigits n).head? ≠ some '-' := by
  rw [natDigits]
  split
  · decide
  · intro h
    rw [List.head?_map] at h
    cases h' : (Nat.digits 10 n).reverse.head? with
    | none => rw [h'] at h; cases h
    | some d =>
      rw [h'] at h
      exact digitChar_ne_dash (Nat.digits_lt_base (by norm_num) (List.mem_reverse.1 (List.mem_of_head? h'))) (Option.some.inj h)

theorem decimal_eq (n : ℤ) : decimal n = if n < 0 then '-' :: natDigits n.natAbs else natDigits n.natAbs := by
  rw [decimal, natDigits]
  by_cases h : n < 0
  · have : n ≠ 0 := by omega
    have h2 : n.natAbs ≠ 0 := by omega
    simp [h, this]
  · by_cases h0 : n = 0
    · simp [h0]
    · simp [h, h0]

theorem decimal_inj {m n : ℤ} (h : decimal m = decimal n) : m = n := by
  rw [decimal_eq, decimal_eq] at h
  split at h <;> split at h
  · have := natDigits_inj (List.cons.inj h).2; omega
  · exact absurd (by rw [← h]; rfl) (natDigits_head n.natAbs)
  · exact absurd (by rw [h]; rfl) (natDigits_head m.natAbs)
  · have := natDigits_inj h; omega

/-- Strings without dash and not empty. -/
def Plain (s : Str) : Prop := s ≠ [] ∧ '-' ∉ s

theorem join_nil_iff {a : List Str} (h : ∀ s ∈ a, Plain s) : join a = [] ↔ a = [] := by
  constructor
  · intro e
    cases a with
    | nil => rfl
    | cons s a =>
      have hs := (h s (by simp)).1
      exfalso
      cases a with
      | nil => simp [join, List.intercalate] at e; exact hs e
      | cons t a => simp [join, List.intercalate] at e
  · rintro rfl; rfl

theorem join_inj {a b : List Str} (ha : ∀ s ∈ a, Plain s) (hb : ∀ s ∈ b, Plain s) (h : join a = join b) : a = b := by
  by_cases h1 : a = []
  · subst h1
    exact ((join_nil_iff hb).1 h.symm).symm
  · by_cases h2 : b = []
    · subst h2
      exact (join_nil_iff ha).1 h
    · have e1 := List.splitOn_intercalate (ls := a) '-' (fun l hl => (ha l hl).2) h1
      have e2 := List.splitOn_intercalate (ls := b) '-' (fun l hl => (hb l hl).2) h2
      rw [join, join] at h
      rw [← e1, h, e2]

/-! ## Numbers -/

theorem pyHash_int {n : ℤ} (h1 : n ≠ -1) (h2 : n.natAbs < 2 ^ 61 - 1) : pyHash n = n := by
  have hP : P = 2 ^ 61 - 1 := rfl
  have h : (n.natAbs * 2 ^ 61) % P = n.natAbs := by
    have e : n.natAbs * 2 ^ 61 = n.natAbs + n.natAbs * P := by rw [hP]; ring_nf
    rw [e, Nat.add_mul_mod_self_right, Nat.mod_eq_of_lt (by rw [hP]; exact h2)]
  rw [pyHash]
  simp only [Rat.num_intCast, Rat.den_intCast, Nat.log_one_right, Nat.zero_mod, Nat.sub_zero, h]
  split <;> split <;> omega

theorem Spec.PlainInt.eq {q r : ℚ} (hq : PlainInt q) (hr : PlainInt r) (h : pyHash q = pyHash r) : q = r := by
  obtain ⟨m, rfl, h1, h2⟩ := hq
  obtain ⟨n, rfl, h3, h4⟩ := hr
  rw [pyHash_int h1 h2, pyHash_int h3 h4] at h
  rw [h]

/-! ## Digests -/

variable {md5 : ByteArray → Str} {extend : ℕ → Option Str}

theorem digest_plain (hm : Digest md5) (b : ByteArray) : Plain (md5 b) :=
  ⟨fun e => by have h := (hm b).1; simp [e] at h, (hm b).2⟩

theorem hashArray_digest {a : NdArray} {h : Str} (e : hashArray md5 a = .ok h) : ∃ b, h = md5 b := by
  rw [hashArray] at e
  split at e
  · exact ⟨_, (Out.ok.inj e).symm⟩
  · cases e

/-- The first of two steps, when the whole has succeeded. -/
theorem bind_ok {α β : Type} {x : Out α} {f : α → Out β} {b : β} (h : x >>= f = .ok b) : ∃ a, x = .ok a ∧ f a = .ok b := by
  cases x with
  | ok a => exact ⟨a, rfl, h⟩
  | stop s => cases h
  | diverge => cases h

theorem theHash_digest {a : Arg} {h : Str} (e : theHash md5 extend a = .ok h) : ∃ b, h = md5 b := by
  cases a with
  | str s => rw [theHash] at e; exact ⟨_, (Out.ok.inj e).symm⟩
  | csr d i p n1 n2 =>
    rw [theHash] at e
    obtain ⟨_, -, e⟩ := bind_ok e
    obtain ⟨_, -, e⟩ := bind_ok e
    obtain ⟨_, -, e⟩ := bind_ok e
    exact ⟨_, (Out.ok.inj e).symm⟩
  | ndarray a => rw [theHash] at e; exact hashArray_digest e
  | sympy s => rw [theHash] at e; exact ⟨_, (Out.ok.inj e).symm⟩
  | seq k xs =>
    rw [theHash] at e
    obtain ⟨_, -, e⟩ := bind_ok e
    exact ⟨_, (Out.ok.inj e).symm⟩
  | dict ks vs =>
    rw [theHash] at e
    obtain ⟨_, -, e⟩ := bind_ok e
    obtain ⟨_, -, e⟩ := bind_ok e
    exact ⟨_, (Out.ok.inj e).symm⟩
  | num k q => rw [theHash] at e; exact ⟨_, (Out.ok.inj e).symm⟩
  | none => rw [theHash] at e; exact ⟨_, (Out.ok.inj e).symm⟩
  | other id =>
    rw [theHash] at e
    split at e
    · exact ⟨_, (Out.ok.inj e).symm⟩
    · cases e

theorem hashList_plain (hm : Digest md5) : ∀ {xs : List Arg} {hs : List Str}, hashList md5 extend xs = .ok hs → ∀ s ∈ hs, Plain s
  | [], hs, e => by rw [hashList] at e; cases e; simp
  | x :: xs, hs, e => by
    rw [hashList] at e
    obtain ⟨h, e1, e⟩ := bind_ok e
    obtain ⟨hs', e2, e⟩ := bind_ok e
    cases e
    intro s hs
    rcases List.mem_cons.1 hs with rfl | hs
    · obtain ⟨b, rfl⟩ := theHash_digest e1
      exact digest_plain hm b
    · exact hashList_plain hm e2 s hs

theorem hashList_length : ∀ {xs : List Arg} {hs : List Str}, hashList md5 extend xs = .ok hs → hs.length = xs.length
  | [], hs, e => by rw [hashList] at e; cases e; rfl
  | x :: xs, hs, e => by
    rw [hashList] at e
    obtain ⟨h, e1, e⟩ := bind_ok e
    obtain ⟨hs', e2, e⟩ := bind_ok e
    cases e
    simp [hashList_length e2]

/-! ## Collisions -/

theorem Spec.Collision.mono {U V U' V' : List ByteArray} (h : Collision md5 U V) (hU : U ⊆ U') (hV : V ⊆ V') : Collision md5 U' V' := by
  obtain ⟨u, hu, v, hv, h⟩ := h
  exact ⟨u, hU hu, v, hV hv, h⟩

theorem eq_or_collision {U V : List ByteArray} {u v : ByteArray} (hu : u ∈ U) (hv : v ∈ V) (h : md5 u = md5 v) : u = v ∨ Collision md5 U V := by
  by_cases e : u = v
  · exact .inl e
  · exact .inr ⟨u, hu, v, hv, e, h⟩

theorem strings_or_collision {U V : List ByteArray} : ∀ {a b : List Str}, (∀ s ∈ a, encode s ∈ U) → (∀ s ∈ b, encode s ∈ V) →
    a.map (hashStr md5) = b.map (hashStr md5) → a = b ∨ Collision md5 U V
  | [], [], _, _, _ => .inl rfl
  | [], _ :: _, _, _, h => by simp at h
  | _ :: _, [], _, _, h => by simp at h
  | s :: a, t :: b, ha, hb, h => by
    simp only [List.map_cons, List.cons.injEq] at h
    rcases eq_or_collision (ha s (by simp)) (hb t (by simp)) h.1 with e | c
    · rcases strings_or_collision (fun x hx => ha x (by simp [hx])) (fun x hx => hb x (by simp [hx])) h.2 with e' | c
      · left; rw [encode_inj e, e']
      · exact .inr c
    · exact .inr c

theorem seqMsg_inj {a b : List Str} (ha : ∀ s ∈ a, Plain s) (hb : ∀ s ∈ b, Plain s) (h : seqMsg a = seqMsg b) : a = b :=
  join_inj ha hb (List.append_cancel_left (encode_inj h))

theorem Spec.SameArray.eq {a b : NdArray} (h : SameArray a b) (e : a.bytes = b.bytes) : a = b := by
  obtain ⟨h1, h2, h3, h4, h5⟩ := h
  have hs : a.shape = b.shape := by
    rcases h5 with h5 | ⟨h5, h6⟩
    · exact h5
    · obtain ⟨n, hn⟩ := List.length_eq_one_iff.1 h5
      obtain ⟨m, hm⟩ := List.length_eq_one_iff.1 h6
      have e1 := h1.2.2
      have e2 := h2.2.2
      rw [e, e2, h4, hn, hm] at e1
      simp at e1
      rw [hn, hm]
      rcases e1 with e1 | e1
      · rw [e1]
      · have := h2.2.1; omega
  cases a; cases b
  simp only [NdArray.mk.injEq]
  exact ⟨h1.1.trans h2.1.symm, h3, h4, hs, e⟩

theorem Spec.SameArray.or_collision {a b : NdArray} {U V : List ByteArray} {h : Str} (hs : SameArray a b) (ha : hashArray md5 a = .ok h)
    (hb : hashArray md5 b = .ok h) (hU : a.bytes ∈ U) (hV : b.bytes ∈ V) : a = b ∨ Collision md5 U V := by
  rw [hashArray, if_pos hs.left.1] at ha
  rw [hashArray, if_pos hs.right.1] at hb
  rcases eq_or_collision hU hV ((Out.ok.inj ha).trans (Out.ok.inj hb).symm) with e | c
  · exact .inl (hs.eq e)
  · exact .inr c

theorem hashArray_val {a : NdArray} {h : Str} (e : hashArray md5 a = .ok h) : h = md5 a.bytes := by
  rw [hashArray] at e
  split at e
  · exact (Out.ok.inj e).symm
  · cases e

theorem list_or_collision : ∀ {xs ys : List Arg} {hs : List Str}, hashList md5 extend xs = .ok hs → hashList md5 extend ys = .ok hs →
    (∀ (i : ℕ) (x y : Arg), xs[i]? = some x → ys[i]? = some y → ∀ h, theHash md5 extend x = .ok h → theHash md5 extend y = .ok h →
      x = y ∨ Collision md5 (messages md5 extend x) (messages md5 extend y)) →
    xs = ys ∨ Collision md5 (messagesList md5 extend xs) (messagesList md5 extend ys)
  | [], [], _, _, _, _ => .inl rfl
  | [], y :: ys, hs, e1, e2, _ => by
    have h1 := hashList_length e1
    have h2 := hashList_length e2
    simp only [List.length_cons, List.length_nil] at h1 h2
    omega
  | x :: xs, [], hs, e1, e2, _ => by
    have h1 := hashList_length e1
    have h2 := hashList_length e2
    simp only [List.length_cons, List.length_nil] at h1 h2
    omega
  | x :: xs, y :: ys, hs, e1, e2, H => by
    rw [hashList] at e1 e2
    obtain ⟨h, a1, e1⟩ := bind_ok e1
    obtain ⟨hs1, a2, e1⟩ := bind_ok e1
    cases e1
    obtain ⟨h', b1, e2⟩ := bind_ok e2
    obtain ⟨hs2, b2, e2⟩ := bind_ok e2
    cases e2
    rcases H 0 x y rfl rfl h a1 b1 with e | c
    · rcases list_or_collision a2 b2 (fun i x y hx hy => H (i + 1) x y hx hy) with e' | c
      · left; rw [e, e']
      · exact .inr (c.mono (by simp [messagesList]) (by simp [messagesList]))
    · exact .inr (c.mono (by simp [messagesList]) (by simp [messagesList]))

/-- Comparable arguments with the same hash are equal, unless two byte strings collide. -/
theorem theHash_sep (hm : Digest md5) {a b : Arg} (hc : Comparable a b) : ∀ h, theHash md5 extend a = .ok h → theHash md5 extend b = .ok h →
    a = b ∨ Collision md5 (messages md5 extend a) (messages md5 extend b) := by
  induction hc with
  | str s t =>
    intro h e1 e2
    rw [theHash] at e1 e2
    rcases eq_or_collision (U := messages md5 extend (.str s)) (V := messages md5 extend (.str t)) (by simp [messages]) (by simp [messages])
      ((Out.ok.inj e1).trans (Out.ok.inj e2).symm) with e | c
    · left; rw [encode_inj e]
    · exact .inr c
  | sympy s t =>
    intro h e1 e2
    rw [theHash] at e1 e2
    rcases eq_or_collision (U := messages md5 extend (.sympy s)) (V := messages md5 extend (.sympy t)) (by simp [messages]) (by simp [messages])
      ((Out.ok.inj e1).trans (Out.ok.inj e2).symm) with e | c
    · left; rw [encode_inj e]
    · exact .inr c
  | num k q r hq hr =>
    intro h e1 e2
    rw [theHash] at e1 e2
    rcases eq_or_collision (U := messages md5 extend (.num k q)) (V := messages md5 extend (.num k r)) (by simp [messages]) (by simp [messages])
      ((Out.ok.inj e1).trans (Out.ok.inj e2).symm) with e | c
    · left; rw [PlainInt.eq hq hr (decimal_inj (encode_inj e))]
    · exact .inr c
  | none => intro _ _ _; exact .inl rfl
  | ndarray a b hs =>
    intro h e1 e2
    rw [theHash] at e1 e2
    rcases hs.or_collision e1 e2 (U := messages md5 extend (.ndarray a)) (V := messages md5 extend (.ndarray b)) (by simp [messages])
      (by simp [messages]) with e | c
    · left; rw [e]
    · exact .inr c
  | seq k xs ys _ ih =>
    intro h e1 e2
    rw [theHash] at e1 e2
    obtain ⟨hx, a1, e1⟩ := bind_ok e1
    obtain ⟨hy, b1, e2⟩ := bind_ok e2
    rcases eq_or_collision (U := messages md5 extend (.seq k xs)) (V := messages md5 extend (.seq k ys)) (u := seqMsg hx) (v := seqMsg hy)
      (by simp [messages, a1]) (by simp [messages, b1]) ((Out.ok.inj e1).trans (Out.ok.inj e2).symm) with e | c
    · have e := seqMsg_inj (hashList_plain hm a1) (hashList_plain hm b1) e
      subst e
      rcases list_or_collision a1 b1 ih with e | c
      · left; rw [e]
      · exact .inr (c.mono (by simp [messages]) (by simp [messages]))
    · exact .inr c
  | dict ks ks' vs vs' hl hl' _ _ ihk ihv =>
    intro h e1 e2
    rw [theHash] at e1 e2
    obtain ⟨hk, a1, e1⟩ := bind_ok e1
    obtain ⟨hv, a2, e1⟩ := bind_ok e1
    obtain ⟨hk', b1, e2⟩ := bind_ok e2
    obtain ⟨hv', b2, e2⟩ := bind_ok e2
    have plain : ∀ (l : List Str), ∀ s ∈ l.map (hashStr md5), Plain s := by
      intro l s hs
      obtain ⟨t, -, rfl⟩ := List.mem_map.1 hs
      exact digest_plain hm _
    rcases eq_or_collision (U := messages md5 extend (.dict ks vs)) (V := messages md5 extend (.dict ks' vs'))
      (u := seqMsg ((("k".toList :: hk) ++ ("v".toList :: hv)).map (hashStr md5)))
      (v := seqMsg ((("k".toList :: hk') ++ ("v".toList :: hv')).map (hashStr md5)))
      (by simp [messages, a1, a2]) (by simp [messages, b1, b2]) ((Out.ok.inj e1).trans (Out.ok.inj e2).symm) with e | c
    · have e := seqMsg_inj (plain _) (plain _) e
      rcases strings_or_collision (U := messages md5 extend (.dict ks vs)) (V := messages md5 extend (.dict ks' vs'))
        (by
          intro s hs
          have : encode s ∈ (("k".toList :: hk) ++ ("v".toList :: hv)).map encode := List.mem_map.2 ⟨s, hs, rfl⟩
          rw [messages, a1, a2]
          exact List.mem_append_right _ (List.mem_append_left _ this))
        (by
          intro s hs
          have : encode s ∈ (("k".toList :: hk') ++ ("v".toList :: hv')).map encode := List.mem_map.2 ⟨s, hs, rfl⟩
          rw [messages, b1, b2]
          exact List.mem_append_right _ (List.mem_append_left _ this)) e with e | c
      · have l1 := hashList_length a1
        have l2 := hashList_length a2
        have l3 := hashList_length b1
        have l4 := hashList_length b2
        have hlen := congrArg List.length e
        simp at hlen
        have hkk : hk.length = hk'.length := by omega
        have e3 := List.append_inj e (by simp [hkk])
        have e4 : hk = hk' := (List.cons.inj e3.1).2
        have e5 : hv = hv' := (List.cons.inj e3.2).2
        subst e4 e5
        rcases list_or_collision a1 b1 ihk with e | c
        · rcases list_or_collision a2 b2 ihv with e' | c
          · left; rw [e, e']
          · exact .inr (c.mono (by intro x hx; simp [messages, hx]) (by intro x hx; simp [messages, hx]))
        · exact .inr (c.mono (by intro x hx; simp [messages, hx]) (by intro x hx; simp [messages, hx]))
      · exact .inr c
    · exact .inr c
  | csr d d' i i' p p' n1 n2 n1' n2' hd hi hp h1 h2 h1' h2' =>
    intro h e1 e2
    rw [theHash] at e1 e2
    obtain ⟨x1, a1, e1⟩ := bind_ok e1
    obtain ⟨x2, a2, e1⟩ := bind_ok e1
    obtain ⟨x3, a3, e1⟩ := bind_ok e1
    obtain ⟨y1, b1, e2⟩ := bind_ok e2
    obtain ⟨y2, b2, e2⟩ := bind_ok e2
    obtain ⟨y3, b3, e2⟩ := bind_ok e2
    have dp : ∀ b, Plain (md5 b) := digest_plain hm
    have p1 : ∀ s ∈ [x1, x2, x3, hashSeq md5 [hashNum md5 n1, hashNum md5 n2]], Plain s := by
      rw [hashArray_val a1, hashArray_val a2, hashArray_val a3]
      simp only [List.forall_mem_cons]
      exact ⟨dp _, dp _, dp _, dp _, by simp⟩
    have p2 : ∀ s ∈ [y1, y2, y3, hashSeq md5 [hashNum md5 n1', hashNum md5 n2']], Plain s := by
      rw [hashArray_val b1, hashArray_val b2, hashArray_val b3]
      simp only [List.forall_mem_cons]
      exact ⟨dp _, dp _, dp _, dp _, by simp⟩
    have p3 : ∀ a b : ℕ, ∀ s ∈ [hashNum md5 a, hashNum md5 b], Plain s := by
      intro a b
      simp only [List.forall_mem_cons]
      exact ⟨dp _, dp _, by simp⟩
    have plain : ∀ n : ℕ, n < 2 ^ 61 - 1 → PlainInt n := fun n hn => ⟨n, by simp, by omega, by simpa using hn⟩
    rcases eq_or_collision (U := messages md5 extend (.csr d i p n1 n2)) (V := messages md5 extend (.csr d' i' p' n1' n2'))
      (u := seqMsg [x1, x2, x3, hashSeq md5 [hashNum md5 n1, hashNum md5 n2]])
      (v := seqMsg [y1, y2, y3, hashSeq md5 [hashNum md5 n1', hashNum md5 n2']])
      (by simp [messages, hashArray_val a1, hashArray_val a2, hashArray_val a3])
      (by simp [messages, hashArray_val b1, hashArray_val b2, hashArray_val b3])
      ((Out.ok.inj e1).trans (Out.ok.inj e2).symm) with e | c
    · have e := seqMsg_inj p1 p2 e
      simp only [List.cons.injEq, and_true] at e
      obtain ⟨q1, q2, q3, q4⟩ := e
      subst q1 q2 q3
      rcases hd.or_collision a1 b1 (U := messages md5 extend (.csr d i p n1 n2)) (V := messages md5 extend (.csr d' i' p' n1' n2'))
        (by simp [messages]) (by simp [messages]) with e3 | c
      · rcases hi.or_collision a2 b2 (U := messages md5 extend (.csr d i p n1 n2)) (V := messages md5 extend (.csr d' i' p' n1' n2'))
          (by simp [messages]) (by simp [messages]) with e4 | c
        · rcases hp.or_collision a3 b3 (U := messages md5 extend (.csr d i p n1 n2)) (V := messages md5 extend (.csr d' i' p' n1' n2'))
            (by simp [messages]) (by simp [messages]) with e5 | c
          · rcases eq_or_collision (U := messages md5 extend (.csr d i p n1 n2)) (V := messages md5 extend (.csr d' i' p' n1' n2'))
              (u := seqMsg [hashNum md5 n1, hashNum md5 n2]) (v := seqMsg [hashNum md5 n1', hashNum md5 n2'])
              (by simp [messages]) (by simp [messages]) q4 with e6 | c
            · have e6 := seqMsg_inj (p3 _ _) (p3 _ _) e6
              simp only [List.cons.injEq, and_true] at e6
              rcases eq_or_collision (U := messages md5 extend (.csr d i p n1 n2)) (V := messages md5 extend (.csr d' i' p' n1' n2'))
                (by simp [messages]) (by simp [messages]) e6.1 with e7 | c
              · rcases eq_or_collision (U := messages md5 extend (.csr d i p n1 n2)) (V := messages md5 extend (.csr d' i' p' n1' n2'))
                  (by simp [messages]) (by simp [messages]) e6.2 with e8 | c
                · have k1 := PlainInt.eq (plain _ h1) (plain _ h1') (decimal_inj (encode_inj e7))
                  have k2 := PlainInt.eq (plain _ h2) (plain _ h2') (decimal_inj (encode_inj e8))
                  left
                  rw [e3, e4, e5, Nat.cast_injective (R := ℚ) k1, Nat.cast_injective (R := ℚ) k2]
                · exact .inr c
              · exact .inr c
            · exact .inr c
          · exact .inr c
        · exact .inr c
      · exact .inr c
    · exact .inr c
  | noneSeq k xs =>
    intro h e1 e2
    rw [theHash] at e1
    rw [theHash] at e2
    obtain ⟨hy, b1, e2⟩ := bind_ok e2
    rcases eq_or_collision (U := messages md5 extend .none) (V := messages md5 extend (.seq k xs)) (u := encode []) (v := seqMsg hy)
      (by simp [messages]) (by simp [messages, b1]) ((Out.ok.inj e1).trans (Out.ok.inj e2).symm) with e | c
    · have := encode_inj e
      simp at this
    · exact .inr c
  | seqNone k xs =>
    intro h e1 e2
    rw [theHash] at e1
    rw [theHash] at e2
    obtain ⟨hy, b1, e1⟩ := bind_ok e1
    rcases eq_or_collision (U := messages md5 extend (.seq k xs)) (V := messages md5 extend .none) (u := seqMsg hy) (v := encode [])
      (by simp [messages, b1]) (by simp [messages]) ((Out.ok.inj e1).trans (Out.ok.inj e2).symm) with e | c
    · have := encode_inj e
      simp at this
    · exact .inr c

/-! ## Calls -/

theorem hashKwargs_length : ∀ {kws : List (Str × Arg)} {hs : List Str}, hashKwargs md5 extend kws = .ok hs → hs.length = 2 * kws.length
  | [], hs, e => by rw [hashKwargs] at e; cases e; rfl
  | (k, v) :: kws, hs, e => by
    rw [hashKwargs] at e
    obtain ⟨h, e1, e⟩ := bind_ok e
    obtain ⟨hs', e2, e⟩ := bind_ok e
    cases e
    simp only [List.length_cons, hashKwargs_length e2]
    ring

theorem hashKwargs_plain (hm : Digest md5) : ∀ {kws : List (Str × Arg)} {hs : List Str}, hashKwargs md5 extend kws = .ok hs → ∀ s ∈ hs, Plain s
  | [], hs, e => by rw [hashKwargs] at e; cases e; simp
  | (k, v) :: kws, hs, e => by
    rw [hashKwargs] at e
    obtain ⟨h, e1, e⟩ := bind_ok e
    obtain ⟨hs', e2, e⟩ := bind_ok e
    cases e
    obtain ⟨b, rfl⟩ := theHash_digest e1
    simp only [List.forall_mem_cons]
    exact ⟨digest_plain hm _, digest_plain hm _, hashKwargs_plain hm e2⟩

/-- The byte strings hashed for the keyword arguments. -/
def kwMessages (md5 : ByteArray → Str) (extend : ℕ → Option Str) (kws : List (Str × Arg)) : List ByteArray :=
  kws.flatMap (fun kv => encode kv.1 :: messages md5 extend kv.2)

theorem kwargs_or_collision (hm : Digest md5) : ∀ {xs ys : List (Str × Arg)} {hs : List Str}, hashKwargs md5 extend xs = .ok hs →
    hashKwargs md5 extend ys = .ok hs →
    (∀ (i : ℕ) (k : Str) (x y : Arg), xs[i]? = some (k, x) → ys[i]? = some (k, y) → Comparable x y) →
    xs = ys ∨ Collision md5 (kwMessages md5 extend xs) (kwMessages md5 extend ys)
  | [], [], _, _, _, _ => .inl rfl
  | [], y :: ys, hs, e1, e2, _ => by
    have h1 := hashKwargs_length e1
    have h2 := hashKwargs_length e2
    simp only [List.length_cons, List.length_nil] at h1 h2
    omega
  | x :: xs, [], hs, e1, e2, _ => by
    have h1 := hashKwargs_length e1
    have h2 := hashKwargs_length e2
    simp only [List.length_cons, List.length_nil] at h1 h2
    omega
  | (k, x) :: xs, (k', y) :: ys, hs, e1, e2, H => by
    rw [hashKwargs] at e1 e2
    obtain ⟨h, a1, e1⟩ := bind_ok e1
    obtain ⟨hs1, a2, e1⟩ := bind_ok e1
    cases e1
    obtain ⟨h', b1, e2⟩ := bind_ok e2
    obtain ⟨hs2, b2, e2⟩ := bind_ok e2
    have e2 := Out.ok.inj e2
    simp only [List.cons.injEq] at e2
    obtain ⟨e3, rfl, rfl⟩ := e2
    have hU : ∀ b ∈ kwMessages md5 extend xs, b ∈ kwMessages md5 extend ((k, x) :: xs) := by
      intro b hb; simp only [kwMessages, List.flatMap_cons]; exact List.mem_append_right _ hb
    have hV : ∀ b ∈ kwMessages md5 extend ys, b ∈ kwMessages md5 extend ((k', y) :: ys) := by
      intro b hb; simp only [kwMessages, List.flatMap_cons]; exact List.mem_append_right _ hb
    have hU' : ∀ b ∈ encode k :: messages md5 extend x, b ∈ kwMessages md5 extend ((k, x) :: xs) := by
      intro b hb; simp only [kwMessages, List.flatMap_cons]; exact List.mem_append_left _ hb
    have hV' : ∀ b ∈ encode k' :: messages md5 extend y, b ∈ kwMessages md5 extend ((k', y) :: ys) := by
      intro b hb; simp only [kwMessages, List.flatMap_cons]; exact List.mem_append_left _ hb
    rcases eq_or_collision (hU' _ (by simp)) (hV' _ (by simp)) e3.symm with e | c
    · have e := encode_inj e
      subst e
      rcases theHash_sep hm (H 0 k x y rfl rfl) _ a1 b1 with e | c
      · rcases kwargs_or_collision hm a2 b2 (fun i k x y hx hy => H (i + 1) k x y hx hy) with e' | c
        · left; rw [e, e']
        · exact .inr (c.mono hU hV)
      · exact .inr (c.mono (fun b hb => hU' b (List.mem_cons_of_mem _ hb)) (fun b hb => hV' b (List.mem_cons_of_mem _ hb)))
    · exact .inr c

theorem fileName_ok {name k : Str} {c : Call} (h : fileName md5 extend name c = .ok k) : ∃ h1 h2, hashList md5 extend c.args = .ok h1 ∧
    hashKwargs md5 extend c.kwargs = .ok h2 ∧ k = name ++ '-' :: md5 (encode (join (h1 ++ h2))) := by
  rw [fileName] at h
  obtain ⟨h1, e1, h⟩ := bind_ok h
  obtain ⟨h2, e2, h⟩ := bind_ok h
  exact ⟨h1, h2, e1, e2, (Out.ok.inj h).symm⟩

/-- Calls with the same signature and the same file name are equal, unless two byte strings collide. -/
theorem fileName_sep (hm : Digest md5) {c c' : Call} {name k : Str} (hs : SameSignature c c') (h : fileName md5 extend name c = .ok k)
    (h' : fileName md5 extend name c' = .ok k) : c = c' ∨ Collision md5 (callMessages md5 extend c) (callMessages md5 extend c') := by
  obtain ⟨h1, h2, a1, a2, rfl⟩ := fileName_ok h
  obtain ⟨h1', h2', b1, b2, e⟩ := fileName_ok h'
  have e := (List.cons.inj (List.append_cancel_left e)).2
  rcases eq_or_collision (U := callMessages md5 extend c) (V := callMessages md5 extend c') (by simp [callMessages, a1, a2])
    (by simp [callMessages, b1, b2]) e with e | c1
  · have plain : ∀ l l' : List Str, (∀ s ∈ l, Plain s) → (∀ s ∈ l', Plain s) → ∀ s ∈ l ++ l', Plain s := by
      intro l l' hl hl' s hs
      rcases List.mem_append.1 hs with h | h
      · exact hl s h
      · exact hl' s h
    have e := join_inj (plain _ _ (hashList_plain hm a1) (hashKwargs_plain hm a2)) (plain _ _ (hashList_plain hm b1) (hashKwargs_plain hm b2))
      (encode_inj e)
    obtain ⟨rfl, rfl⟩ := List.append_inj e (by rw [hashList_length a1, hashList_length b1, hs.args])
    rcases list_or_collision a1 b1 (fun i x y hx hy h e e' => theHash_sep hm (hs.comparable i x y hx hy) h e e') with q | q
    · rcases kwargs_or_collision hm a2 b2 hs.kwargs with q' | q'
      · left
        cases c; cases c'
        simp only [Call.mk.injEq]
        exact ⟨q, q'⟩
      · right
        refine q'.mono (fun b hb => ?_) (fun b hb => ?_) <;> simp only [callMessages, List.mem_append] <;> exact .inl (.inr hb)
    · right
      refine q.mono (fun b hb => ?_) (fun b hb => ?_) <;> simp only [callMessages, List.mem_append] <;> exact .inl (.inl hb)
  · exact .inr c1

/-- The name of the function can be read off the name of the file. -/
theorem fileName_name (hm : Digest md5) {extend' : ℕ → Option Str} {c c' : Call} {name name' k : Str} (h : fileName md5 extend name c = .ok k)
    (h' : fileName md5 extend' name' c' = .ok k) : name = name' := by
  obtain ⟨_, _, -, -, rfl⟩ := fileName_ok h
  obtain ⟨_, _, -, -, e⟩ := fileName_ok h'
  exact (List.append_inj' e (by simp [(hm _).1])).1

/-! ## The wrapper -/

/-- What the files contain: under each name, the result of one of the requests of `h`. -/
def FilesOk {Fn : Type} (md5 : ByteArray → Str) (lib : Library Fn) (h : List (Request Fn)) (files : Files) : Prop :=
  ∀ (dir base : Str) (e : Ext) (st : Stored), files ⟨dir, base, [e]⟩ = some st →
    ∃ r ∈ h, ∃ v, fileName md5 (lib.dec r.fn).extend (lib.name r.fn) r.call = .ok base ∧ lib.fn r.fn r.call = .ok v ∧
      e = (if isSparse v then .npz else .npy) ∧ st = store v

theorem saveResult_ok {Fn : Type} {lib : Library Fn} {h : List (Request Fn)} {files : Files} {s : Settings} {r : Request Fn} {v : Res}
    {dir base : Str} {exts : List Ext} (hf : FilesOk md5 lib h files) (hr : r ∈ h)
    (hb : fileName md5 (lib.dec r.fn).extend (lib.name r.fn) r.call = .ok base) (hv : lib.fn r.fn r.call = .ok v)
    (he : exts = [] ∨ exts = [if isSparse v then .npz else .npy]) : FilesOk md5 lib h (saveResult s files ⟨dir, base, exts⟩ v) := by
  have hq : saveExts exts (if isSparse v then .npz else .npy) = [if isSparse v then .npz else .npy] := by
    rcases he with rfl | rfl
    · simp [saveExts]
    · simp [saveExts]
  rw [saveResult]
  split
  · simp only [hq]
    intro dir' base' e st hst
    beta_reduce at hst
    by_cases hp : (⟨dir', base', [e]⟩ : Path) = ⟨dir, base, [if isSparse v then .npz else .npy]⟩
    · rw [if_pos hp] at hst
      simp only [Path.mk.injEq, List.cons.injEq, and_true] at hp
      obtain ⟨-, rfl, rfl⟩ := hp
      exact ⟨r, hr, v, hb, hv, rfl, (Option.some.inj hst).symm⟩
    · rw [if_neg hp] at hst
      exact hf dir' base' e st hst
  · exact hf

theorem value_intify {v w : Res} (h : store v = .loads w) : value (intify w) = value v := by
  cases v with
  | num b q => cases h; simp [intify, value]
  | array s d => cases h; rfl
  | csr a b c => cases h; rfl
  | tuple p => cases h

theorem computeAndSave_ok {Fn : Type} {lib : Library Fn} {h : List (Request Fn)} {files : Files} {s : Settings} {r : Request Fn}
    {dir base : Str} {exts : List Ext} (hf : FilesOk md5 lib h files) (hr : r ∈ h)
    (hb : fileName md5 (lib.dec r.fn).extend (lib.name r.fn) r.call = .ok base)
    (he : ∀ v, lib.fn r.fn r.call = .ok v → exts = [] ∨ exts = [if isSparse v then .npz else .npy]) :
    (computeAndSave s files ⟨dir, base, exts⟩ (lib.fn r.fn r.call)).1 = lib.fn r.fn r.call ∧
      FilesOk md5 lib h (computeAndSave s files ⟨dir, base, exts⟩ (lib.fn r.fn r.call)).2 := by
  cases hv : lib.fn r.fn r.call with
  | ok v => exact ⟨rfl, saveResult_ok hf hr hb hv (he v hv)⟩
  | stop x => exact ⟨rfl, hf⟩
  | diverge => exact ⟨rfl, hf⟩

theorem wrapper_ok {Fn : Type} {lib : Library Fn} {h : List (Request Fn)} {files : Files} {r : Request Fn} (hr : r ∈ h)
    (hf : FilesOk md5 lib h files) (hkey : ∃ k, fileName md5 (lib.dec r.fn).extend (lib.name r.fn) r.call = .ok k)
    (hclose : ∀ v w, lib.fn r.fn r.call = .ok v → store v = .loads w → (lib.dec r.fn).close v w = .ok true)
    (hsep : ∀ r' ∈ h, ∀ k, fileName md5 (lib.dec r.fn).extend (lib.name r.fn) r.call = .ok k →
      fileName md5 (lib.dec r'.fn).extend (lib.name r'.fn) r'.call = .ok k → lib.fn r.fn r.call = lib.fn r'.fn r'.call) :
    let w := wrapper md5 (lib.dec r.fn) (lib.name r.fn) (lib.fn r.fn) r.settings r.override r.call files
    outValue w.1 = outValue (lib.fn r.fn r.call) ∧ FilesOk md5 lib h w.2 := by
  obtain ⟨k, hk⟩ := hkey
  have key : ∀ e st, files ⟨r.settings.cachedir, k, [e]⟩ = some st → ∃ v, lib.fn r.fn r.call = .ok v ∧
      e = (if isSparse v then .npz else .npy) ∧ st = store v := by
    intro e st hst
    obtain ⟨r', hr', v, h1, h2, h3, h4⟩ := hf _ _ _ _ hst
    exact ⟨v, (hsep r' hr' k hk h1).trans h2, h3, h4⟩
  have body : ∀ (e : Ext) (st : Stored), (∃ v, lib.fn r.fn r.call = .ok v ∧ e = (if isSparse v then .npz else .npy) ∧ st = store v) →
      let w := match (e, st) with
        | (e, Stored.raises) => computeAndSave r.settings files ⟨r.settings.cachedir, k, [e]⟩ (lib.fn r.fn r.call)
        | (e, Stored.loads cached) => if r.override.getD r.settings.cache then (.ok (intify cached), files)
          else (compareResult (lib.dec r.fn) (decide (e = Ext.npz)) cached (lib.fn r.fn r.call), files)
      outValue w.1 = outValue (lib.fn r.fn r.call) ∧ FilesOk md5 lib h w.2 := by
    rintro e st ⟨v, hv, he, hst⟩
    cases st with
    | raises =>
      obtain ⟨h1, h2⟩ := computeAndSave_ok (s := r.settings) (dir := r.settings.cachedir) (exts := [e]) hf hr hk (by
        intro v' hv'
        have : v' = v := Out.ok.inj (hv'.symm.trans hv)
        subst this
        exact .inr (congrArg (fun x => [x]) he))
      exact ⟨congrArg outValue h1, h2⟩
    | loads cached =>
      dsimp only
      split
      · refine ⟨?_, hf⟩
        rw [hv]
        exact congrArg Out.ok (value_intify hst.symm)
      · refine ⟨?_, hf⟩
        have hok : (decide (e = Ext.npz) == isSparse v) = true := by
          rw [he]
          cases isSparse v <;> rfl
        rw [hv, compareResult, Out.ok_bind, hclose v cached hv hst.symm, Out.ok_bind, hok]
        simp
  dsimp only
  rw [wrapper, hk]
  dsimp only
  cases h1 : files ⟨r.settings.cachedir, k, [.npy]⟩ with
  | some st =>
    have := body .npy st (key _ _ h1)
    dsimp only at this ⊢
    cases st <;> exact this
  | none =>
    cases h2 : files ⟨r.settings.cachedir, k, [.npz]⟩ with
    | some st =>
      have := body .npz st (key _ _ h2)
      dsimp only at this ⊢
      cases st <;> exact this
    | none =>
      obtain ⟨h1, h2⟩ := computeAndSave_ok (s := r.settings) (dir := r.settings.cachedir) (exts := []) hf hr hk (fun v _ => .inl rfl)
      exact ⟨congrArg outValue h1, h2⟩

end Hermipy
