import Verif.Spec.FunctionObject

/-! # Replacement of the variables in C code -/

namespace Hermipy

open Hermipy.Spec

theorem digits_word (i : ℕ) : ∀ c ∈ (toString i).toList, c.isDigit = true := by
  intro c hc
  have hc : c ∈ i.repr.toList := hc
  rw [Nat.toList_repr] at hc
  exact Nat.isDigit_of_mem_toDigits (by norm_num) (by norm_num) hc

theorem digits_ne_nil (i : ℕ) : (toString i).toList ≠ [] := by
  show i.repr.toList ≠ []
  rw [Nat.toList_repr]
  exact Nat.toDigits_ne_nil

theorem isWord_digit {c : Char} (h : c.isDigit = true) : isWord c = true := by
  unfold isWord Char.isAlphanum
  simp [h]

theorem varText_word (d : ℕ) : ∀ c ∈ varText d, isWord c = true := by
  intro c hc
  rcases List.mem_cons.1 hc with rfl | hc
  · rfl
  · exact isWord_digit (digits_word d c hc)

/-- Starts with no word character. -/
def NoWord (t : List Char) : Prop := ∀ c s, t = c :: s → isWord c = false

theorem resub_inside {pat rep : List Char} : ∀ (cs : List Char) (n : ℕ) (t : List Char), (∀ c ∈ cs, isWord c = true) →
    resub pat rep (cs.length + n) true (cs ++ t) = cs ++ resub pat rep n true t
  | [], n, t, _ => by simp
  | c :: cs, n, t, h => by
    have e : (c :: cs).length + n = (cs.length + n) + 1 := by simp; omega
    rw [e, List.cons_append, resub]
    rw [if_neg (by simp), h c (by simp), resub_inside cs n t fun x hx => h x (by simp [hx])]
    rfl

theorem resub_gap {p : Char} {pat rep t : List Char} (hp : isWord p = true) (ht : NoWord t) : ∀ n,
    resub (p :: pat) rep n true t = resub (p :: pat) rep n false t
  | 0 => by simp [resub]
  | n + 1 => by
    cases t with
    | nil => simp [resub]
    | cons c s =>
      have hc : isWord c = false := ht c s rfl
      have : ((p :: pat).isPrefixOf (c :: s)) = false := by
        rw [List.isPrefixOf]
        have : (p == c) = false := by
          rw [beq_eq_false_iff_ne]
          rintro rfl
          rw [hp] at hc
          exact absurd hc (by simp)
        simp [this]
      simp [resub, this]

theorem prefix_word {pat cs t : List Char} (hp : ∀ c ∈ pat, isWord c = true) (ht : NoWord t) (h : pat <+: cs ++ t) : pat <+: cs := by
  rcases List.prefix_or_prefix_of_prefix h (List.prefix_append cs t) with k | k
  · exact k
  · obtain ⟨r, rfl⟩ := k
    rw [List.prefix_append_right_inj] at h
    cases r with
    | nil => simp
    | cons a r =>
      obtain ⟨u, rfl⟩ := h
      have := ht a (r ++ u) (by simp)
      rw [hp a (by simp)] at this
      exact absurd this (by simp)

/-- The tokens of `v[i]`. -/
def entry (i : ℕ) : List Tok := [.word ['v'], .sep '[', .word (toString i).toList, .sep ']']

/-- Replacement of the words equal to `pat`. -/
def substTok (pat : List Char) (i : ℕ) : List Tok → List Tok
  | [] => []
  | .word cs :: ts => (if cs = pat then entry i else [.word cs]) ++ substTok pat i ts
  | .sep c :: ts => .sep c :: substTok pat i ts

theorem tokText_append : ∀ (a b : List Tok), tokText (a ++ b) = tokText a ++ tokText b
  | [], _ => rfl
  | .word cs :: a, b => by
    show cs ++ tokText (a ++ b) = (cs ++ tokText a) ++ tokText b
    rw [tokText_append a b, List.append_assoc]
  | .sep c :: a, b => by
    show c :: tokText (a ++ b) = c :: (tokText a ++ tokText b)
    rw [tokText_append a b]

theorem tokText_entry (i : ℕ) : tokText (entry i) = 'v' :: '[' :: (toString i).toList ++ [']'] := by
  simp [entry, tokText]

theorem noWord_next {cs : List Char} {ts : List Tok} (h : Lexed (.word cs :: ts)) : NoWord (tokText ts) := by
  obtain ⟨_, _, h3, h4⟩ := h
  intro c s e
  cases ts with
  | nil => simp [tokText] at e
  | cons a ts =>
    cases a with
    | word cs' => exact absurd rfl (h3 cs' ts)
    | sep c' =>
      have e : c' :: tokText ts = c :: s := e
      injection e with e1 e2
      rw [← e1]
      exact h4.1

theorem resub_tokens {d i : ℕ} : ∀ (ts : List Tok) (n : ℕ), Lexed ts →
    (∀ cs, .word cs ∈ ts → varText d <+: cs → cs = varText d) → (tokText ts).length ≤ n →
    resub (varText d) ('v' :: '[' :: (toString i).toList ++ [']']) n false (tokText ts) = tokText (substTok (varText d) i ts)
  | [], n, _, _, _ => by cases n <;> simp [tokText, substTok, resub]
  | .sep c :: ts, n, h, hw, hn => by
    have hn : (tokText ts).length + 1 ≤ n := hn
    obtain ⟨n, rfl⟩ : ∃ m, n = m + 1 := ⟨n - 1, by omega⟩
    have ih := resub_tokens (d := d) (i := i) ts n h.2 (fun cs hcs => hw cs (by simp [hcs])) (by omega)
    show resub _ _ (n + 1) false (c :: tokText ts) = c :: tokText (substTok (varText d) i ts)
    rw [resub, if_neg, h.1, ih]
    have : (varText d).isPrefixOf (c :: tokText ts) = false := by
      unfold varText
      rw [List.isPrefixOf]
      have : ('x' == c) = false := by
        rw [beq_eq_false_iff_ne]
        rintro rfl
        exact absurd h.1 (by decide)
      simp [this]
    simp [this]
  | .word cs :: ts, n, h, hw, hn => by
    have hn : (cs ++ tokText ts).length ≤ n := hn
    rw [List.length_append] at hn
    have hnw := noWord_next h
    obtain ⟨h1, h2, h3, h4⟩ := h
    have hwt : ∀ cs, .word cs ∈ ts → varText d <+: cs → cs = varText d := fun cs hcs => hw cs (by simp [hcs])
    have gap : ∀ m, (tokText ts).length ≤ m → resub (varText d) ('v' :: '[' :: (toString i).toList ++ [']']) m true (tokText ts) =
        tokText (substTok (varText d) i ts) := by
      intro m hm
      rw [← resub_tokens ts m h4 hwt hm]
      exact resub_gap rfl hnw m
    cases cs with
    | nil => exact absurd rfl h1
    | cons c cs =>
      obtain ⟨n, rfl⟩ : ∃ m, n = m + 1 := ⟨n - 1, by simp at hn; omega⟩
      show resub _ _ (n + 1) false (c :: (cs ++ tokText ts)) = tokText ((if c :: cs = varText d then entry i else [.word (c :: cs)]) ++ _)
      rw [resub, tokText_append]
      by_cases hp : varText d <+: (c :: cs) ++ tokText ts
      · have hcs : c :: cs = varText d := hw (c :: cs) (by simp) (prefix_word (varText_word d) hnw hp)
        rw [if_pos, if_pos hcs, tokText_entry]
        · congr 1
          have e : (c :: (cs ++ tokText ts)).drop (varText d).length = tokText ts := by
            rw [← hcs, ← List.cons_append, List.drop_left]
          rw [e]
          exact gap n (by simp at hn; omega)
        · have := List.isPrefixOf_iff_prefix.2 hp
          simpa using this
      · have hcs : c :: cs ≠ varText d := by
          intro hcs
          exact hp (hcs ▸ List.prefix_append _ _)
        rw [if_neg, if_neg hcs, h2 c (by simp)]
        · obtain ⟨m, rfl⟩ : ∃ m, n = cs.length + m := ⟨n - cs.length, by simp at hn; omega⟩
          rw [resub_inside cs m _ fun x hx => h2 x (by simp [hx]), gap m (by simp at hn; omega)]
          simp [tokText]
        · intro hc
          apply hp
          have : (varText d).isPrefixOf (c :: (cs ++ tokText ts)) = true := by simpa using hc
          exact List.isPrefixOf_iff_prefix.1 this

theorem substTok_head {pat : List Char} {i : ℕ} : ∀ {ts : List Tok}, (∀ cs' ts', ts ≠ .word cs' :: ts') →
    ∀ cs' ts', substTok pat i ts ≠ .word cs' :: ts'
  | [], _, _, _ => by simp [substTok]
  | .word cs :: ts, h, _, _ => absurd rfl (h cs ts)
  | .sep c :: ts, _, _, _ => by simp [substTok]

theorem substTok_lexed {pat : List Char} {i : ℕ} : ∀ {ts : List Tok}, Lexed ts → Lexed (substTok pat i ts)
  | [], _ => trivial
  | .sep c :: ts, h => ⟨h.1, substTok_lexed h.2⟩
  | .word cs :: ts, h => by
    obtain ⟨h1, h2, h3, h4⟩ := h
    have ih := substTok_lexed (pat := pat) (i := i) h4
    unfold substTok
    split_ifs with hc
    · refine ⟨by simp, by decide, by simp, by decide, digits_ne_nil i, fun c hc => isWord_digit (digits_word i c hc), by simp, by decide, ih⟩
    · exact ⟨h1, h2, substTok_head h3, ih⟩

theorem substTok_words {pat : List Char} {i : ℕ} : ∀ {ts : List Tok} {cs : List Char}, .word cs ∈ substTok pat i ts →
    .word cs ∈ ts ∨ cs = ['v'] ∨ cs = (toString i).toList
  | [], _, h => by simp [substTok] at h
  | .sep c :: ts, cs, h => by
    rcases List.mem_cons.1 h with h | h
    · cases h
    · rcases substTok_words h with h | h
      · exact .inl (by simp [h])
      · exact .inr h
  | .word c :: ts, cs, h => by
    unfold substTok at h
    rcases List.mem_append.1 h with h | h
    · split_ifs at h with hc
      · simp only [entry, List.mem_cons, Tok.word.injEq, reduceCtorEq, false_or, List.not_mem_nil, or_false] at h
        exact .inr h
      · exact .inl (by rw [List.mem_singleton] at h; simp [h])
    · rcases substTok_words h with h | h
      · exact .inl (by simp [h])
      · exact .inr h

theorem not_prefix_new {d i : ℕ} {cs : List Char} (h : cs = ['v'] ∨ cs = (toString i).toList) : ¬ varText d <+: cs := by
  rintro ⟨t, ht⟩
  have hx : 'x' ∈ cs := by rw [← ht]; simp [varText]
  rcases h with rfl | rfl
  · exact absurd hx (by decide)
  · exact absurd (digits_word i _ hx) (by decide)

/-- `cText` with places counted from `k`. -/
def cTextFrom (k : ℕ) (dirs : List ℕ) : List Tok → List Char
  | [] => []
  | .word cs :: ts => (match dirs.find? fun d => varText d = cs with
    | some d => ['v', '['] ++ (toString (k + dirs.idxOf d)).toList ++ [']']
    | none => cs) ++ cTextFrom k dirs ts
  | .sep c :: ts => c :: cTextFrom k dirs ts

theorem cTextFrom_zero (dirs : List ℕ) : ∀ ts, cTextFrom 0 dirs ts = cText dirs ts
  | [] => rfl
  | .sep c :: ts => by
    show c :: _ = c :: _
    rw [cTextFrom_zero dirs ts]
  | .word cs :: ts => by
    unfold cTextFrom cText
    rw [cTextFrom_zero dirs ts]
    cases dirs.find? fun d => varText d = cs with
    | none => rfl
    | some d => simp

theorem cTextFrom_nil (k : ℕ) : ∀ ts, cTextFrom k [] ts = tokText ts
  | [] => rfl
  | .sep c :: ts => by
    show c :: _ = c :: _
    rw [cTextFrom_nil k ts]
  | .word cs :: ts => by
    unfold cTextFrom tokText
    rw [cTextFrom_nil k ts]
    simp

theorem cTextFrom_append (k : ℕ) (ds : List ℕ) : ∀ a b, cTextFrom k ds (a ++ b) = cTextFrom k ds a ++ cTextFrom k ds b
  | [], _ => rfl
  | .sep c :: a, b => by
    show c :: cTextFrom k ds (a ++ b) = c :: (cTextFrom k ds a ++ cTextFrom k ds b)
    rw [cTextFrom_append k ds a b]
  | .word cs :: a, b => by
    show _ ++ cTextFrom k ds (a ++ b) = (_ ++ cTextFrom k ds a) ++ cTextFrom k ds b
    rw [cTextFrom_append k ds a b, List.append_assoc]

theorem cTextFrom_entry (k i : ℕ) (ds : List ℕ) : cTextFrom k ds (entry i) = 'v' :: '[' :: (toString i).toList ++ [']'] := by
  have hf : ∀ cs : List Char, (cs = ['v'] ∨ cs = (toString i).toList) → ds.find? (fun d => varText d = cs) = none := by
    intro cs h
    rw [List.find?_eq_none]
    intro d _ hd
    have hd : varText d = cs := by simpa using hd
    exact not_prefix_new (d := d) h (by rw [hd])
  unfold entry cTextFrom
  rw [hf _ (.inl rfl)]
  simp only [cTextFrom, hf _ (.inr rfl)]
  simp

theorem cTextFrom_step (k d : ℕ) (ds : List ℕ) : ∀ ts,
    cTextFrom (k + 1) ds (substTok (varText d) k ts) = cTextFrom k (d :: ds) ts
  | [] => rfl
  | .sep c :: ts => by
    show c :: _ = c :: _
    rw [cTextFrom_step k d ds ts]
  | .word cs :: ts => by
    unfold substTok
    rw [cTextFrom_append, cTextFrom_step k d ds ts]
    show _ = _ ++ cTextFrom k (d :: ds) ts
    congr 1
    by_cases hc : cs = varText d
    · rw [if_pos hc, cTextFrom_entry]
      rw [List.find?_cons_of_pos (by simp [hc])]
      simp
    · rw [if_neg hc, List.find?_cons_of_neg (by simpa using fun h : varText d = cs => hc h.symm)]
      simp only [cTextFrom]
      cases hf : ds.find? fun d => varText d = cs with
      | none => simp
      | some d' =>
        have hd' : varText d' = cs := by simpa using List.find?_some hf
        have : d ≠ d' := by
          rintro rfl
          exact hc hd'.symm
        have e : k + 1 + ds.idxOf d' = k + (d :: ds).idxOf d' := by
          rw [List.idxOf_cons_ne _ this]
          omega
        simp [e]

theorem ccode_from : ∀ (ds : List ℕ) (k : ℕ) (ts : List Tok), Lexed ts →
    (∀ d ∈ ds, ∀ cs, .word cs ∈ ts → varText d <+: cs → cs = varText d) →
    (ds.zipIdx k).foldl (fun code d => resub ('x' :: (toString d.1).toList) ('v' :: '[' :: (toString d.2).toList ++ [']']) code.length false code)
      (tokText ts) = cTextFrom k ds ts
  | [], k, ts, _, _ => by rw [cTextFrom_nil]; rfl
  | d :: ds, k, ts, h, hw => by
    rw [List.zipIdx_cons, List.foldl_cons]
    have e := resub_tokens (d := d) (i := k) ts (tokText ts).length h (hw d (by simp)) le_rfl
    unfold varText at e
    rw [e, ← cTextFrom_step]
    refine ccode_from ds (k + 1) _ (substTok_lexed h) ?_
    intro d' hd' cs hcs hp
    rcases substTok_words hcs with h' | h'
    · exact hw d' (by simp [hd']) cs h' hp
    · exact absurd hp (not_prefix_new h')

end Hermipy
