import Verif.Comments.Model
import Verif.Lexer.Kinds

/-! Property theorems C32 and C58. -/

namespace Verif.Comments
open Verif.Lexer (blen split startsWith startsWith_iff split_complete split_sound blen_append)

/-! ### C32 -/

/-- The documented rules, by the characters after the two that open the comment: `//!` and `/*!` are inner
documentation; `///` is outer documentation unless a fourth slash follows; `/**` is outer documentation
unless another star or the closing slash follows. -/
def documentedKind (text : List Char) : Kind :=
  if text[1]? = some '/' then
    ⟨.Line, if text[2]? = some '!' then some .Inner
      else if text[2]? = some '/' ∧ text[3]? ≠ some '/' then some .Outer else none⟩
  else
    ⟨.Block, if text[2]? = some '!' then some .Inner
      else if text[2]? = some '*' ∧ text[3]? ≠ some '*' ∧ text[3]? ≠ some '/' then some .Outer else none⟩

/-- Every text of a comment token. -/
def IsComment (text : List Char) : Prop := ['/', '/'] <+: text ∨ ['/', '*'] <+: text

theorem sw_false {text p : List Char} : startsWith text p = false ↔ ¬ p <+: text := by
  rw [← startsWith_iff]; simp

/-- The first entry of the table that matches. -/
theorem find_spec (text : List Char) (h : IsComment text) : ∃ p k, (p, k) ∈ byPrefix ∧ p <+: text ∧
    byPrefix.find? (fun q => startsWith text q.1) = some (p, k) ∧
    (∀ q ∈ byPrefix, q.1 <+: text → q.1.length ≤ p.length) := by
  cases hf : byPrefix.find? (fun q => startsWith text q.1) with
  | none =>
    rw [List.find?_eq_none] at hf
    exfalso
    rcases h with h | h
    · exact hf (['/', '/'], ⟨.Line, none⟩) (by decide) ((startsWith_iff _ _).2 h)
    · exact hf (['/', '*'], ⟨.Block, none⟩) (by decide) ((startsWith_iff _ _).2 h)
  | some q =>
    obtain ⟨p, k⟩ := q
    have hm := List.mem_of_find?_eq_some hf
    have hp := (startsWith_iff _ _).1 (List.find?_some (p := fun q : List Char × Kind => startsWith text q.1) hf)
    refine ⟨p, k, hm, hp, rfl, ?_⟩
    intro q hq hqt
    by_contra hlt
    obtain ⟨-, as, bs, e, hno⟩ := List.find?_eq_some_iff_append.1 hf
    have hqas : q ∈ as := by
      have hsorted : byPrefix.Pairwise fun a b => b.1.length ≤ a.1.length := by decide
      rw [e] at hsorted hq
      rcases List.mem_append.1 hq with hq | hq
      · exact hq
      · rw [List.pairwise_append] at hsorted
        have h2 := (List.pairwise_cons.1 hsorted.2.1).1
        rcases List.mem_cons.1 hq with rfl | hq
        · exact absurd (Nat.le_refl _) hlt
        · exact absurd (h2 _ hq) hlt
    have := hno q hqas
    rw [(startsWith_iff _ _).2 hqt] at this
    cases this

/-- **C32 (classification).** Every comment is classified, by the longest entry of the table that is a
prefix of its text. -/
theorem C32_longest_prefix (text : List Char) (h : IsComment text) : ∃ p k, (p, k) ∈ byPrefix ∧ p <+: text ∧
    (∀ q ∈ byPrefix, q.1 <+: text → q.1.length ≤ p.length) ∧ fromText text = some k := by
  obtain ⟨p, k, h1, h2, h3, h4⟩ := find_spec text h
  exact ⟨p, k, h1, h2, h4, by rw [fromText, h3]; rfl⟩

/-- **C32 (documented kinds).** The kind given to a comment is the documented one. -/
theorem C32_documented_kind (text : List Char) (h : IsComment text) :
    fromText text = some (documentedKind text) := by
  have hb : ∀ a b : Char, (a == b) = decide (b = a) := by
    intro a b; rw [Bool.eq_iff_iff, beq_iff_eq, decide_eq_true_eq]; exact eq_comm
  rcases h with ⟨r, rfl⟩ | ⟨r, rfl⟩ <;>
  · match r with
    | [] => decide
    | [c] =>
      by_cases h1 : c = '/' <;> by_cases h2 : c = '!' <;> by_cases h3 : c = '*' <;>
        simp_all [fromText, documentedKind, byPrefix, startsWith, List.isPrefixOf, List.find?]
    | c :: d :: cs =>
      by_cases h1 : c = '/' <;> by_cases h2 : c = '!' <;> by_cases h3 : c = '*' <;>
        by_cases h4 : d = '/' <;> by_cases h5 : d = '*' <;>
        simp_all [fromText, documentedKind, byPrefix, startsWith, List.isPrefixOf, List.find?]

/-- **C32 (prefix).** The prefix reported for a comment is the longest entry of the table that is a prefix of
its text; in particular asking for it never panics. -/
theorem C32_prefix_of_text (text : List Char) (h : IsComment text) : ∃ p k, (p, k) ∈ byPrefix ∧ p <+: text ∧
    (∀ q ∈ byPrefix, q.1 <+: text → q.1.length ≤ p.length) ∧ commentPrefix text = some p := by
  obtain ⟨p, k, h1, h2, h3, h4⟩ := find_spec text h
  refine ⟨p, k, h1, h2, h4, ?_⟩
  have hk : fromText text = some k := by rw [fromText, h3]; rfl
  unfold commentPrefix
  rw [hk]
  show (byPrefix.find? fun q => k = q.2 && startsWith text q.1).map (·.1) = some p
  obtain ⟨-, as, bs, e, hno⟩ := List.find?_eq_some_iff_append.1 h3
  have : byPrefix.find? (fun q => k = q.2 && startsWith text q.1) = some (p, k) := by
    rw [List.find?_eq_some_iff_append]
    refine ⟨by simp [(startsWith_iff _ _).2 h2], as, bs, e, fun a ha => ?_⟩
    have := hno a ha
    simp only [Bool.not_eq_eq_eq_not, Bool.not_true] at this
    simp [this]
  rw [this]; rfl

theorem stripSuffix_spec (text suf : List Char) :
    (∃ r, text = r ++ suf ∧ stripSuffix text suf = some r) ∨ (¬ suf <:+ text ∧ stripSuffix text suf = none) := by
  unfold stripSuffix
  split
  · rename_i hs
    obtain ⟨r, rfl⟩ := List.isSuffixOf_iff_suffix.1 hs
    exact Or.inl ⟨r, rfl, by simp⟩
  · rename_i hs
    rw [List.isSuffixOf_iff_suffix] at hs
    exact Or.inr ⟨hs, rfl⟩

/-- **C32 (text).** Extracting the text of a comment never panics. For a documentation comment it is the
text after the three characters that open it, without the closing delimiter of a block comment; for other
comments there is none. -/
theorem C32_text_extraction (text : List Char) (h : IsComment text) :
    ∃ r, commentLine text = some r ∧
      ((r = none ∧ (documentedKind text).doc = none) ∨
       ∃ line p, r = some line ∧ p.length = 3 ∧ (documentedKind text).doc ≠ none ∧
        (((documentedKind text).shape = .Line ∧ text = p ++ line) ∨
         ((documentedKind text).shape = .Block ∧ text = p ++ line ++ ['*', '/']) ∨
         ((documentedKind text).shape = .Block ∧ text = p ++ line ∧ ¬ ['*', '/'] <:+ line))) := by
  have hk := C32_documented_kind text h
  obtain ⟨p, k, h1, h2, h3, h4⟩ := C32_longest_prefix text h
  rw [hk] at h4
  simp only [Option.some.injEq] at h4
  have hall : ∀ q ∈ byPrefix, q.2.doc ≠ none → kindPrefix q.2 = some q.1 ∧ q.1.length = 3 := by decide
  unfold commentLine
  rw [hk, h4]
  cases hd : k.doc with
  | none => exact ⟨none, by simp [hd], Or.inl ⟨rfl, rfl⟩⟩
  | some d =>
    obtain ⟨hp, hl⟩ := hall _ h1 (by simp [hd])
    simp only at hp hl
    obtain ⟨rest, rfl⟩ := h2
    simp only [Option.bind_eq_bind, Option.bind_some, hd, hp, split_complete]
    cases hs : k.shape with
    | Line => exact ⟨_, rfl, Or.inr ⟨rest, p, rfl, hl, by simp, Or.inl ⟨rfl, rfl⟩⟩⟩
    | Block =>
      simp only
      rcases stripSuffix_spec rest ['*', '/'] with ⟨r, hr, hr'⟩ | ⟨hn, hr'⟩
      · rw [hr']
        exact ⟨_, rfl, Or.inr ⟨r, p, rfl, hl, by simp, Or.inr (Or.inl ⟨trivial, by rw [hr]; simp⟩)⟩⟩
      · rw [hr']
        exact ⟨_, rfl, Or.inr ⟨rest, p, rfl, hl, by simp, Or.inr (Or.inr ⟨trivial, rfl, hn⟩)⟩⟩

/-- **C32 (from source).** Every comment token of a lexed source is a comment in the above sense. -/
theorem C32_lexed_comments {g : List Char → Nat} (hg : Lexer.Graphemes g) (fuel : Nat) (text : List Char)
    (toks : List Lexer.RawToken) (h : Lexer.tokenize g fuel text = some (some toks)) :
    ∃ pieces : List (List Char), pieces.flatten = text ∧ pieces.length = toks.length ∧
      ∀ p ∈ toks.zip pieces, p.1.kind = .COMMENT → IsComment p.2 := by
  have hc := Lexer.C56_kinds_agree_with_text hg fuel text toks h
  clear h
  induction hc with
  | nil => exact ⟨[], rfl, rfl, by simp⟩
  | cons a rest k toks hne hd _ ih =>
    obtain ⟨ps, p1, p2, p3⟩ := ih
    refine ⟨a :: ps, by simp [p1], by simp [p2], ?_⟩
    intro q hq hk
    rw [List.zip_cons_cons] at hq
    rcases List.mem_cons.1 hq with rfl | hq
    · rcases hd.comment hk with h | h
      · exact Or.inr h
      · exact Or.inl h.1
    · exact p3 q hq hk

example : IsComment "/** doc */".toList ∧ commentLine "/** doc */".toList = some (some " doc ".toList) ∧
    commentLine "//// x".toList = some none := by
  refine ⟨Or.inr ⟨_, rfl⟩, ?_, ?_⟩ <;> decide +kernel

/-! ### C58 -/

theorem rfindChar_spec (ch : Char) (text : List Char) :
    (rfindChar ch text = none ∧ ch ∉ text) ∨
    ∃ a b, text = a ++ ch :: b ∧ ch ∉ b ∧ rfindChar ch text = some (blen a) := by
  induction text with
  | nil => exact Or.inl ⟨rfl, by simp⟩
  | cons c cs ih =>
    rcases ih with ⟨h1, h2⟩ | ⟨a, b, h1, h2, h3⟩
    · by_cases hc : c = ch
      · exact Or.inr ⟨[], cs, by rw [hc]; rfl, h2, by simp [rfindChar, h1, hc, blen]⟩
      · exact Or.inl ⟨by simp [rfindChar, h1, hc], by simp [h2, Ne.symm hc]⟩
    · exact Or.inr ⟨c :: a, b, by rw [h1]; rfl, h2, by simp [rfindChar, h3, blen, Nat.add_comm]⟩

/-- **C58.** For every text that starts with the opening `b"` or `x"`, taking away the quotes never panics.
If there is a later quote the result is what is between the opening and the last quote; otherwise it is the
text unchanged. -/
theorem C58_text_without_quotes (q : Char) (hq : q.utf8Size = 1) (body : List Char) :
    (∃ content after, body = content ++ '"' :: after ∧ '"' ∉ after ∧
      textWithoutQuotes (q :: '"' :: body) [q, '"'] = some content) ∨
    ('"' ∉ body ∧ textWithoutQuotes (q :: '"' :: body) [q, '"'] = some (q :: '"' :: body)) := by
  have hfind : find [q, '"'] (q :: '"' :: body) = some 0 := by
    simp [find, startsWith, List.isPrefixOf]
  have hbl : blen [q, '"'] = 2 := by
    simp only [blen, hq]; rfl
  have hquote : ('"' : Char).utf8Size = 1 := rfl
  rcases rfindChar_spec '"' body with ⟨h1, h2⟩ | ⟨a, b, h1, h2, h3⟩
  · right
    refine ⟨h2, ?_⟩
    have hr : rfindChar '"' (q :: '"' :: body) = some 1 := by
      simp [rfindChar, h1, hq]
    unfold textWithoutQuotes QuoteOffsets.new
    rw [hfind, hr, hbl]
    rfl
  · left
    refine ⟨a, b, h1, h2, ?_⟩
    have hr : rfindChar '"' (q :: '"' :: body) = some (blen a + 2) := by
      simp [rfindChar, h3, hq, hquote]
    have hlen : blen (q :: '"' :: body) = 2 + blen body := by
      simp only [blen, hq, hquote]; omega
    have hb : blen body = blen a + 1 + blen b := by
      rw [h1, blen_append]; simp only [blen, hquote]; omega
    unfold textWithoutQuotes QuoteOffsets.new
    rw [hfind, hr, hbl, hlen]
    simp only
    rw [if_neg (by omega), if_neg (by omega), if_pos (by omega)]
    have s1 : split (blen a + 2) (q :: '"' :: body) = some (q :: '"' :: a, '"' :: b) := by
      have := split_complete (q :: '"' :: a) ('"' :: b)
      have e : blen (q :: '"' :: a) = blen a + 2 := by simp only [blen, hq, hquote]; omega
      rw [e] at this
      rw [← this, h1]; rfl
    have s2 : split 2 (q :: '"' :: a) = some ([q, '"'], a) := by
      have := split_complete [q, '"'] a
      rw [hbl] at this
      exact this
    simp only [Option.bind_eq_bind, s1, Option.bind_some, Nat.zero_add, s2]

example : ('b' : Char).utf8Size = 1 ∧
    textWithoutQuotes "b\"ab\"".toList "b\"".toList = some "ab".toList := by decide +kernel

/-- **C58 (from source).** Every string token of a lexed source starts with its opening, so the above
applies to it. -/
theorem C58_lexed_strings {g : List Char → Nat} (hg : Lexer.Graphemes g) (fuel : Nat) (text : List Char)
    (toks : List Lexer.RawToken) (h : Lexer.tokenize g fuel text = some (some toks)) :
    ∃ pieces : List (List Char), pieces.flatten = text ∧ pieces.length = toks.length ∧
      ∀ p ∈ toks.zip pieces, (p.1.kind = .BYTE_STRING → ∃ body, p.2 = 'b' :: '"' :: body) ∧
        (p.1.kind = .HEX_STRING → ∃ body, p.2 = 'x' :: '"' :: body) := by
  have hc := Lexer.C56_kinds_agree_with_text hg fuel text toks h
  clear h
  induction hc with
  | nil => exact ⟨[], rfl, rfl, by simp⟩
  | cons a rest k toks hne hd _ ih =>
    obtain ⟨ps, p1, p2, p3⟩ := ih
    refine ⟨a :: ps, by simp [p1], by simp [p2], ?_⟩
    intro q hq
    rw [List.zip_cons_cons] at hq
    rcases List.mem_cons.1 hq with rfl | hq
    · refine ⟨fun hk => ?_, fun hk => ?_⟩
      · obtain ⟨⟨r, hr⟩, -⟩ := hd.bytes hk
        exact ⟨r, hr.symm⟩
      · obtain ⟨⟨r, hr⟩, -⟩ := hd.hex hk
        exact ⟨r, hr.symm⟩
    · exact p3 q hq

end Verif.Comments
