import Verif.Lexer.Lemmas

/-! Property theorems C25 and C26. -/

namespace Verif.Lexer
open Verif.Syntax (SyntaxKind)

/-- Contract of the segmentation crate: the first grapheme cluster of a non-empty text has at least one
character. -/
def Graphemes (g : List Char → Nat) : Prop := ∀ text, text ≠ [] → 1 ≤ g text

theorem single_pre {text : List Char} {c : Char} (h : [c] <+: text) (hc : c.utf8Size = 1) : IsPre text 1 := by
  have := IsPre.of_prefix h (by simp)
  simpa [blen, hc] using this

theorem takeWhile_pre {text : List Char} {c : Char} (p : Char → Bool) (h : [c] <+: text) (hc : p c = true) :
    IsPre text (blen (text.takeWhile p)) := by
  refine IsPre.of_prefix (List.takeWhile_prefix _) ?_
  obtain ⟨r, rfl⟩ := h
  simp [hc]

theorem isNum_spec {curr : List Char} (h : isNum curr = true) : ∃ c, curr = [c] ∧ isDigit c = true := by
  unfold isNum at h
  split at h
  · exact ⟨_, rfl, h⟩
  · cases h

theorem isAlphabetic_spec {curr : List Char} (h : isAlphabetic curr = true) :
    ∃ c, curr = [c] ∧ isNameChar c = true := by
  unfold isAlphabetic at h
  split at h
  · rename_i c
    refine ⟨_, rfl, ?_⟩
    simp only [isNameChar]
    rw [h]; rfl
  · cases h

/-- A known kind with a length that is a non-empty prefix. -/
def Good (text : List Char) (p : Tok × Nat) : Prop := IsPre text p.2 ∧ (syntaxKind p.1).isSome

theorem Good.ite {text : List Char} {c : Prop} [Decidable c] {p q : Tok × Nat} (h1 : c → Good text p)
    (h2 : ¬ c → Good text q) : Good text (if c then p else q) := by
  split
  · exact h1 ‹_›
  · exact h2 ‹_›

theorem Good.lit {text pre : List Char} {t : Tok} (ha : Ascii pre) (hne : pre ≠ [])
    (ht : (syntaxKind t).isSome) (h : startsWith text pre = true) : Good text (t, pre.length) :=
  ⟨isPre_lit h ha hne, ht⟩

theorem Good.one {text : List Char} {c : Char} {t : Tok} (h : [c] <+: text) (hc : c.utf8Size = 1)
    (ht : (syntaxKind t).isSome) : Good text (t, 1) := ⟨single_pre h hc, ht⟩

theorem punctToken_spec {text curr : List Char} (h : curr <+: text) (hne : curr ≠ []) :
    Good text (punctToken text curr) := by
  unfold punctToken
  repeat' (refine Good.ite (fun hc => ?_) (fun _ => ?_))
  all_goals first
    | exact ⟨IsPre.of_prefix h hne, rfl⟩
    | exact Good.lit (by decide) (by decide) rfl hc
    | (subst hc; exact Good.one h rfl rfl)

theorem nameToken_spec (name : List Char) : (syntaxKind (nameToken name)).isSome := by
  have key : ∀ {c : Prop} [Decidable c] {p q : Tok}, (syntaxKind p).isSome → (syntaxKind q).isSome →
      (syntaxKind (if c then p else q)).isSome := by
    intro c _ p q h1 h2; split <;> assumption
  unfold nameToken
  repeat' refine key ?_ ?_
  all_goals rfl

/-- What `find_token` returns on a non-empty text: for everything but a block comment, a non-empty prefix. -/
theorem findToken_spec {g : List Char → Nat} (hg : Graphemes g) {text : List Char} (hne : text ≠ []) :
    ∃ tok len, findToken g text = some (tok, len) ∧ (syntaxKind tok).isSome ∧
      (IsPre text len ∨ (tok = .BlockComment ∧ ['/', '*'] <+: text ∧ len = blockCommentLen text)) := by
  have hcp : text.take (g text) <+: text := List.take_prefix _ _
  have hcn : text.take (g text) ≠ [] := by
    have := hg text hne
    intro h
    rw [List.take_eq_nil_iff] at h
    rcases h with h | h
    · omega
    · exact hne h
  unfold findToken
  rw [if_neg hne]
  simp only
  generalize text.take (g text) = curr at hcp hcn
  split
  · rename_i h
    refine ⟨_, _, rfl, rfl, Or.inl ?_⟩
    have hl := prefix_firstLine ((startsWith_iff _ _).1 h.2) (by decide) (by decide) (by decide)
    refine IsPre.of_prefix (firstLine_prefix _) ?_
    intro h0; rw [h0] at hl; simp at hl
  split
  · rename_i h
    exact ⟨_, _, rfl, rfl, Or.inr ⟨rfl, (startsWith_iff _ _).1 h.2, rfl⟩⟩
  split
  · rename_i h
    refine ⟨_, _, rfl, rfl, Or.inl ?_⟩
    unfold wsLen
    rw [positionNot_eq _ isSpace_ascii]
    rcases h with rfl | rfl | rfl <;> exact takeWhile_pre _ hcp rfl
  split
  · rename_i h
    obtain ⟨c, rfl, hc⟩ := isNum_spec h
    split
    · rename_i hx
      obtain ⟨cs, rfl⟩ := (startsWith_iff _ _).1 hx.1
      simp only [List.cons_append, List.nil_append, List.drop_succ_cons, List.drop_zero]
      unfold hexNumber numberMaybeWithSuffix findNot
      have e := takeWhile_prefix' isHexChar cs
      have e3 : split (blen (cs.takeWhile isHexChar)) cs =
          some (cs.takeWhile isHexChar, cs.dropWhile isHexChar) := by
        conv => lhs; arg 2; rw [e]
        exact split_complete _ _
      rw [e3]
      simp only [Option.map_some]
      obtain ⟨s1, s2⟩ := numberSuffix_spec' e rfl
      generalize numberSuffix _ _ = q at s1 s2
      split
      · exact ⟨_, _, rfl, rfl, Or.inl ⟨['0'], 'x' :: cs, rfl, rfl, by simp⟩⟩
      · rename_i hz
        refine ⟨_, _, rfl, ?_, Or.inl ?_⟩
        · rcases s2 with s2 | s2 <;> rw [s2] <;> rfl
        · obtain ⟨a, b, h1, h2, h3⟩ := s1 hz
          exact ⟨'0' :: 'x' :: a, b, by rw [h1]; rfl, by
            simp only [blen, h2]
            have e0 : ('0' : Char).utf8Size = 1 := rfl
            have ex : ('x' : Char).utf8Size = 1 := rfl
            omega, by simp⟩
    · unfold decimalNumber numberMaybeWithSuffix
      rw [positionNot_eq _ decDigit_ascii]
      have e := takeWhile_prefix' (fun c => isDigit c || c == '_') text
      have e3 : split (blen (text.takeWhile fun c => isDigit c || c == '_')) text =
          some (text.takeWhile (fun c => isDigit c || c == '_'), text.dropWhile fun c => isDigit c || c == '_') := by
        conv => lhs; arg 2; rw [e]
        exact split_complete _ _
      rw [e3]
      simp only [Option.map_some]
      have hne' : text.takeWhile (fun c => isDigit c || c == '_') ≠ [] := by
        obtain ⟨r, rfl⟩ := hcp
        simp [hc]
      obtain ⟨s1, s2⟩ := numberSuffix_spec e rfl hne'
      generalize numberSuffix _ _ = q at s1 s2
      refine ⟨q.1, q.2, rfl, ?_, Or.inl s1⟩
      rcases s2 with s2 | s2 <;> rw [s2] <;> rfl
  split
  · rename_i h
    obtain ⟨c, rfl, hc⟩ := isAlphabetic_spec h
    split
    · rename_i hx
      have hl := prefix_firstLine ((startsWith_iff _ _).1 hx) (by decide) (by decide) (by decide)
      obtain ⟨m, h1, h2, h3⟩ := hexStringMatch_spec _ hl
      rw [h1]
      exact ⟨_, _, rfl, rfl, Or.inl (IsPre.of_prefix (h2.trans (firstLine_prefix _)) h3)⟩
    split
    · rename_i hx
      have hl := prefix_firstLine ((startsWith_iff _ _).1 hx) (by decide) (by decide) (by decide)
      split
      · rename_i m hm
        obtain ⟨h2, h3⟩ := byteStringMatch_prefix _ _ hm
        exact ⟨_, _, rfl, rfl, Or.inl (IsPre.of_prefix (h2.trans (firstLine_prefix _)) h3)⟩
      · refine ⟨_, _, rfl, rfl, Or.inl (IsPre.of_prefix (firstLine_prefix _) ?_)⟩
        intro h0; rw [h0] at hl; simp at hl
    · unfold nameLen
      rw [positionNot_eq _ isNameChar_ascii]
      have e3 : split (blen (text.takeWhile isNameChar)) text =
          some (text.takeWhile isNameChar, text.dropWhile isNameChar) := by
        conv => lhs; arg 2; rw [takeWhile_prefix' isNameChar text]
        exact split_complete _ _
      rw [e3]
      exact ⟨_, _, rfl, nameToken_spec _, Or.inl (takeWhile_pre _ hcp hc)⟩
  split
  · rename_i h
    subst h
    split
    · rename_i m hm
      obtain ⟨h2, h3⟩ := quoteIdentMatch_prefix _ _ hm
      exact ⟨_, _, rfl, rfl, Or.inl (IsPre.of_prefix h2 h3)⟩
    · exact ⟨_, _, rfl, rfl, Or.inl (single_pre hcp rfl)⟩
  split
  · rename_i h
    subst h
    exact ⟨_, _, rfl, rfl, Or.inl (single_pre hcp rfl)⟩
  · obtain ⟨h1, h2⟩ := punctToken_spec hcp hcn
    exact ⟨_, _, rfl, h2, Or.inl h1⟩

/-! ### C26 -/

/-- Where a comment ends. `Closes d cs k`: inside `d + 1` open comments, the closing delimiter that matches
the outermost one ends after `k` characters of `cs`. Delimiters are read from left to right and do not
overlap. -/
inductive Closes : Nat → List Char → Nat → Prop
  | close (rest) : Closes 0 ('*' :: '/' :: rest) 2
  | inner (d rest k) : Closes d rest k → Closes (d + 1) ('*' :: '/' :: rest) (k + 2)
  | opens (d rest k) : Closes (d + 1) rest k → Closes d ('/' :: '*' :: rest) (k + 2)
  | char (d c rest k) : ¬ ['/', '*'] <+: c :: rest → ¬ ['*', '/'] <+: c :: rest → Closes d rest k →
      Closes d (c :: rest) (k + 1)

/-- The number of characters of the block comment at the start of a text: up to the matching closing
delimiter, or the whole text if there is none. -/
inductive CommentSpan (text : List Char) : Nat → Prop
  | closed (body k) : text = '/' :: '*' :: body → Closes 0 body k → CommentSpan text (k + 2)
  | unclosed (body) : text = '/' :: '*' :: body → (∀ k, ¬ Closes 0 body k) → CommentSpan text text.length

theorem Closes.le {d : Nat} {cs : List Char} {k : Nat} (h : Closes d cs k) : k ≤ cs.length := by
  induction h <;> simp only [List.length_cons] <;> omega

theorem not_closes_nil (d k : Nat) : ¬ Closes d [] k := fun h => by cases h

theorem not_closes_single (d k : Nat) (c : Char) : ¬ Closes d [c] k := fun h => by
  cases h with
  | char _ _ _ _ _ _ h => exact not_closes_nil _ _ h

theorem Closes.det {d : Nat} {cs : List Char} {k k' : Nat} (h : Closes d cs k) (h' : Closes d cs k') :
    k = k' := by
  induction h generalizing k' with
  | close rest =>
    cases h' with
    | close => rfl
    | char _ _ _ _ _ h => exact absurd ⟨rest, rfl⟩ h
  | inner d rest k _ ih =>
    cases h' with
    | inner _ _ _ h => rw [ih h]
    | char _ _ _ _ _ h => exact absurd ⟨rest, rfl⟩ h
  | opens d rest k _ ih =>
    cases h' with
    | opens _ _ _ h => rw [ih h]
    | char _ _ _ _ h => exact absurd ⟨rest, rfl⟩ h
  | char d c rest k h1 h2 _ ih =>
    cases h' with
    | close r => exact absurd ⟨r, rfl⟩ h2
    | inner _ r _ h => exact absurd ⟨r, rfl⟩ h2
    | opens _ r _ h => exact absurd ⟨r, rfl⟩ h1
    | char _ _ _ _ _ _ h => rw [ih h]

/-- The scanning loop returns the number of characters up to the matching delimiter. If there is none, it
returns the number of characters or the length of the text. -/
theorem blockLoop_spec (total : Nat) (cs : List Char) (pos d : Nat) :
    (∃ k, Closes d cs k ∧ blockLoop total cs pos d = 2 + pos + k) ∨
    ((∀ k, ¬ Closes d cs k) ∧
      (blockLoop total cs pos d = 2 + pos + cs.length ∨ blockLoop total cs pos d = total)) := by
  fun_induction blockLoop total cs pos d
  · exact Or.inr ⟨fun k => not_closes_nil _ k, Or.inl (by simp)⟩
  · exact Or.inr ⟨fun k => not_closes_single _ k _, Or.inr rfl⟩
  · rename_i curr next cs pos nested hc ih
    obtain ⟨rfl, rfl⟩ := hc
    rcases ih with ⟨k, h1, h2⟩ | ⟨h1, h2⟩
    · exact Or.inl ⟨k + 2, .opens _ _ _ h1, by rw [h2]; omega⟩
    · refine Or.inr ⟨?_, ?_⟩
      · intro k h
        cases h with
        | opens _ _ _ h => exact h1 _ h
        | char _ _ _ _ h => exact absurd ⟨_, rfl⟩ h
      · rcases h2 with h2 | h2
        · left; rw [h2]; simp only [List.length_cons]; omega
        · right; exact h2
  · rename_i curr next cs pos h1 h2
    obtain ⟨rfl, rfl⟩ := h2
    exact Or.inl ⟨2, .close _, rfl⟩
  · rename_i curr next cs pos nested h1 h2 h0 ih
    obtain ⟨rfl, rfl⟩ := h2
    obtain ⟨n, rfl⟩ : ∃ n, nested = n + 1 := ⟨nested - 1, by omega⟩
    simp only [Nat.add_sub_cancel] at ih ⊢
    rcases ih with ⟨k, h1, h2⟩ | ⟨h1, h2⟩
    · exact Or.inl ⟨k + 2, .inner _ _ _ h1, by rw [h2]; omega⟩
    · refine Or.inr ⟨?_, ?_⟩
      · intro k h
        cases h with
        | inner _ _ _ h => exact h1 _ h
        | char _ _ _ _ _ h => exact absurd ⟨_, rfl⟩ h
      · rcases h2 with h2 | h2
        · left; rw [h2]; simp only [List.length_cons]; omega
        · right; exact h2
  · rename_i curr next cs pos nested hn1 hn2 ih
    have p1 : ¬ ['/', '*'] <+: curr :: next :: cs := by
      rintro ⟨r, hr⟩
      simp only [List.cons_append, List.nil_append, List.cons.injEq] at hr
      exact hn1 ⟨hr.1.symm, hr.2.1.symm⟩
    have p2 : ¬ ['*', '/'] <+: curr :: next :: cs := by
      rintro ⟨r, hr⟩
      simp only [List.cons_append, List.nil_append, List.cons.injEq] at hr
      exact hn2 ⟨hr.1.symm, hr.2.1.symm⟩
    rcases ih with ⟨k, h1, h2⟩ | ⟨h1, h2⟩
    · exact Or.inl ⟨k + 1, .char _ _ _ _ p1 p2 h1, by rw [h2]; omega⟩
    · refine Or.inr ⟨?_, ?_⟩
      · intro k h
        cases h with
        | close => exact p2 ⟨_, rfl⟩
        | inner _ _ _ h => exact p2 ⟨_, rfl⟩
        | opens _ _ _ h => exact p1 ⟨_, rfl⟩
        | char _ _ _ _ _ _ h => exact h1 _ h
      · rcases h2 with h2 | h2
        · left; rw [h2]; simp only [List.length_cons]; omega
        · right; exact h2

/-- **C26 (what is computed).** For a closed block comment, the length the lexer uses as a number of bytes is
the number of characters of the comment. -/
theorem C26_length_counts_characters_partial (body : List Char) (k : Nat) (h : Closes 0 body k) :
    blockCommentLen ('/' :: '*' :: body) = k + 2 := by
  unfold blockCommentLen
  rcases blockLoop_spec (blen ('/' :: '*' :: body)) body 0 0 with ⟨k', h1, h2⟩ | ⟨h1, -⟩
  · rw [List.drop_succ_cons, List.drop_succ_cons, List.drop_zero, h2, h.det h1]; omega
  · exact absurd h (h1 k)

/-- **C26 (exactly when it is right).** A closed block comment is given its length in bytes if and only if
all its characters are ASCII. -/
theorem C26_closed_iff_ascii_partial (body : List Char) (k : Nat) (h : Closes 0 body k) :
    blockCommentLen ('/' :: '*' :: body) = blen (('/' :: '*' :: body).take (k + 2)) ↔
      Ascii (('/' :: '*' :: body).take (k + 2)) := by
  rw [C26_length_counts_characters_partial body k h]
  have hl : (('/' :: '*' :: body).take (k + 2)).length = k + 2 := by
    rw [List.length_take, List.length_cons, List.length_cons]
    have := h.le
    omega
  constructor
  · intro e
    exact ascii_of_blen (by omega)
  · intro ha
    rw [ha.blen, hl]

/-- **C26 (ASCII).** A block comment whose characters are all ASCII spans exactly from its opening to its
matching closing delimiter, or to the end of the text if it is not closed, whatever follows it. -/
theorem C26_ascii_comment_exact_partial (text : List Char) (n : Nat) (h : CommentSpan text n)
    (ha : Ascii (text.take n)) : blockCommentLen text = blen (text.take n) := by
  cases h with
  | closed body k ht hk =>
    subst ht
    exact (C26_closed_iff_ascii_partial body k hk).2 ha
  | unclosed body ht hn =>
    rw [List.take_length] at ha ⊢
    have hb := ha.blen
    subst ht
    unfold blockCommentLen
    rcases blockLoop_spec (blen ('/' :: '*' :: body)) body 0 0 with ⟨k', h1, -⟩ | ⟨-, h2 | h2⟩
    · exact absurd h1 (hn k')
    · rw [List.drop_succ_cons, List.drop_succ_cons, List.drop_zero, h2, hb]
      simp only [List.length_cons]; omega
    · exact h2

theorem closes_or_not (d : Nat) (cs : List Char) : (∃ k, Closes d cs k) ∨ ∀ k, ¬ Closes d cs k := by
  by_cases h : ∃ k, Closes d cs k
  · exact Or.inl h
  · exact Or.inr fun k hk => h ⟨k, hk⟩

theorem CommentSpan.exists_of_prefix {text : List Char} (h : ['/', '*'] <+: text) : ∃ n, CommentSpan text n := by
  obtain ⟨body, rfl⟩ := h
  rcases closes_or_not 0 body with ⟨k, hk⟩ | hn
  · exact ⟨_, .closed body k rfl hk⟩
  · exact ⟨_, .unclosed body rfl hn⟩

theorem CommentSpan.take_ne {text : List Char} {n : Nat} (h : CommentSpan text n) : text.take n ≠ [] := by
  cases h with
  | closed body k ht hk => subst ht; simp
  | unclosed body ht hn => subst ht; simp

/-- A nested comment followed by code. -/
example : CommentSpan "/* a /* b */ c */ x".toList 17 ∧ Ascii ("/* a /* b */ c */ x".toList.take 17) := by
  refine ⟨.closed _ 15 rfl ?_, by decide⟩
  iterate 3 refine .char _ _ _ _ (by decide) (by decide) ?_
  refine .opens _ _ _ ?_
  iterate 3 refine .char _ _ _ _ (by decide) (by decide) ?_
  refine .inner _ _ _ ?_
  iterate 3 refine .char _ _ _ _ (by decide) (by decide) ?_
  exact .close _

/-! ### C25 -/

/-- The texts of the tokens, in order: non-empty, of the lengths given, and together the whole text. -/
def Tiles (text : List Char) (toks : List RawToken) : Prop :=
  ∃ pieces : List (List Char), pieces.flatten = text ∧ toks.map (·.len) = pieces.map blen ∧
    ∀ p ∈ pieces, p ≠ []

theorem blockLoop_pos (total : Nat) (ht : 0 < total) (cs : List Char) (pos d : Nat) :
    0 < blockLoop total cs pos d := by
  fun_induction blockLoop total cs pos d <;> omega

/-- Every step of the lexer takes a token with a non-empty text, or panics at a block comment. -/
theorem step_spec {g : List Char → Nat} (hg : Graphemes g) {text : List Char} (hne : text ≠ []) :
    ∃ tok len kind, findToken g text = some (tok, len) ∧ tok ≠ .EOF ∧ syntaxKind tok = some kind ∧
      ((∃ a b, text = a ++ b ∧ blen a = len ∧ a ≠ [] ∧ split len text = some (a, b)) ∨
        (split len text = none ∧ ['/', '*'] <+: text ∧ len = blockCommentLen text)) := by
  obtain ⟨tok, len, h1, h2, h3⟩ := findToken_spec hg hne
  obtain ⟨kind, hk⟩ := Option.isSome_iff_exists.1 h2
  refine ⟨tok, len, kind, h1, ?_, hk, ?_⟩
  · rintro rfl; cases hk
  · rcases h3 with ⟨a, b, e1, e2, e3⟩ | ⟨-, hp, hl⟩
    · subst e2
      exact Or.inl ⟨a, b, e1, rfl, e3, by rw [e1]; exact split_complete a b⟩
    · cases hs : split len text with
      | none => exact Or.inr ⟨rfl, hp, hl⟩
      | some p =>
        obtain ⟨a, b⟩ := p
        obtain ⟨e1, e2⟩ := split_sound _ _ _ _ hs
        refine Or.inl ⟨a, b, e1, e2, ?_, rfl⟩
        rintro rfl
        have : 0 < blockCommentLen text := blockLoop_pos _ (blen_pos hne) _ _ _
        rw [← hl, ← e2] at this
        exact absurd this (by simp [blen])

theorem loop_step {g : List Char → Nat} {fuel : Nat} {text : List Char} {tok : Tok} {len : Nat}
    {kind : SyntaxKind} (h1 : findToken g text = some (tok, len)) (h2 : tok ≠ .EOF)
    (h3 : syntaxKind tok = some kind) : tokenizeLoop g (fuel + 1) text =
      match split len text with
      | none => some none
      | some (_, rest) => (tokenizeLoop g fuel rest).map (·.map (⟨kind, len⟩ :: ·)) := by
  rw [tokenizeLoop, h1]
  cases tok <;> first
    | exact absurd rfl h2
    | (simp only [h3]; cases split len text <;> rfl)

theorem loop_nil (g : List Char → Nat) (fuel : Nat) : tokenizeLoop g (fuel + 1) [] = some (some []) := by
  simp [tokenizeLoop, findToken]

theorem loop_tiles {g : List Char → Nat} (hg : Graphemes g) (fuel : Nat) (text : List Char)
    (toks : List RawToken) (h : tokenizeLoop g fuel text = some (some toks)) : Tiles text toks := by
  induction fuel generalizing text toks with
  | zero => simp [tokenizeLoop] at h
  | succ fuel ih =>
    by_cases hne : text = []
    · subst hne
      rw [loop_nil] at h
      cases h
      exact ⟨[], rfl, rfl, by simp⟩
    · obtain ⟨tok, len, kind, h1, h2, h3, h4⟩ := step_spec hg hne
      rw [loop_step h1 h2 h3] at h
      rcases h4 with ⟨a, b, e1, e2, e3, e4⟩ | ⟨e4, -⟩
      · rw [e4] at h
        simp only [Option.map_eq_some_iff] at h
        obtain ⟨r, hr, rs, hrs, rfl⟩ := h
        obtain ⟨ps, p1, p2, p3⟩ := ih b rs (by rw [hr, hrs])
        refine ⟨a :: ps, by simp [p1, e1], by simp [p2, e2], ?_⟩
        intro p hp
        rcases List.mem_cons.1 hp with rfl | hp
        · exact e3
        · exact p3 p hp
      · rw [e4] at h; cases h

/-- **C25 (lossless).** Whenever lexing returns tokens, every token is non-empty and ends on a character
boundary, and the texts of the tokens concatenated are the source text. -/
theorem C25_tokens_tile_text {g : List Char → Nat} (hg : Graphemes g) (fuel : Nat) (text : List Char)
    (toks : List RawToken) (h : tokenize g fuel text = some (some toks)) : Tiles text toks := by
  unfold tokenize at h
  split at h
  · rename_i h0
    cases h
    exact ⟨[], by simp [h0], rfl, by simp⟩
  · exact loop_tiles hg fuel text toks h

theorem loop_terminates {g : List Char → Nat} (hg : Graphemes g) (fuel : Nat) (text : List Char)
    (h : text.length < fuel) : ∃ r, tokenizeLoop g fuel text = some r ∧
      ∀ toks, r = some toks → toks.length ≤ text.length := by
  induction fuel generalizing text with
  | zero => omega
  | succ fuel ih =>
    by_cases hne : text = []
    · subst hne
      exact ⟨_, loop_nil _ _, by rintro toks ⟨⟩; simp⟩
    · obtain ⟨tok, len, kind, h1, h2, h3, h4⟩ := step_spec hg hne
      rw [loop_step h1 h2 h3]
      rcases h4 with ⟨a, b, e1, e2, e3, e4⟩ | ⟨e4, -⟩
      · rw [e4]
        have hl : a.length + b.length = text.length := by rw [e1, List.length_append]
        have ha : 0 < a.length := List.length_pos_iff.2 e3
        obtain ⟨r, hr, hr'⟩ := ih b (by omega)
        refine ⟨r.map (⟨kind, len⟩ :: ·), by simp only [hr, Option.map_some], ?_⟩
        intro toks ht
        simp only [Option.map_eq_some_iff] at ht
        obtain ⟨rs, hrs, rfl⟩ := ht
        have := hr' rs hrs
        simp only [List.length_cons]; omega
      · rw [e4]; exact ⟨_, rfl, by rintro toks ⟨⟩⟩

/-- **C25 (progress).** Lexing takes at most one step per character and ends, and there are at most as many
tokens as characters. -/
theorem C25_terminates {g : List Char → Nat} (hg : Graphemes g) (fuel : Nat) (text : List Char)
    (h : text.length < fuel) : ∃ r, tokenize g fuel text = some r ∧
      ∀ toks, r = some toks → toks.length ≤ text.length := by
  unfold tokenize
  split
  · exact ⟨_, rfl, by rintro toks ⟨⟩; simp⟩
  · exact loop_terminates hg fuel text h

/-- Every block comment that starts anywhere in the text has ASCII characters only. -/
def AsciiComments (text : List Char) : Prop :=
  ∀ s, s <:+ text → ∀ n, CommentSpan s n → Ascii (s.take n)

theorem loop_no_panic {g : List Char → Nat} (hg : Graphemes g) (fuel : Nat) (text : List Char)
    (h : text.length < fuel) (ha : AsciiComments text) : ∃ toks, tokenizeLoop g fuel text = some (some toks) := by
  induction fuel generalizing text with
  | zero => omega
  | succ fuel ih =>
    by_cases hne : text = []
    · subst hne
      exact ⟨_, loop_nil _ _⟩
    · obtain ⟨tok, len, kind, h1, h2, h3, h4⟩ := step_spec hg hne
      rw [loop_step h1 h2 h3]
      rcases h4 with ⟨a, b, e1, e2, e3, e4⟩ | ⟨e4, hp, hl⟩
      · rw [e4]
        have hl : a.length + b.length = text.length := by rw [e1, List.length_append]
        have ha' : 0 < a.length := List.length_pos_iff.2 e3
        obtain ⟨toks, hr⟩ := ih b (by omega) (fun s hs n hn => ha s (hs.trans (e1 ▸ List.suffix_append a b)) n hn)
        exact ⟨_, by simp only [hr, Option.map_some]; rfl⟩
      · obtain ⟨n, hn⟩ := CommentSpan.exists_of_prefix hp
        have := C26_ascii_comment_exact_partial text n hn (ha text List.suffix_rfl n hn)
        rw [← hl] at this
        have h5 := split_complete (text.take n) (text.drop n)
        rw [List.take_append_drop, ← this, e4] at h5
        cases h5

/-- **C25 (no panic).** If all block comments of the text are ASCII, lexing returns tokens. The characters
outside comments are arbitrary. -/
theorem C25_no_panic_partial {g : List Char → Nat} (hg : Graphemes g) (text : List Char)
    (ha : AsciiComments text) : ∃ n toks, (∀ fuel ≥ n, tokenize g fuel text = some (some toks)) ∧ Tiles text toks := by
  have mono : ∀ fuel, text.length < fuel → ∃ toks, tokenize g fuel text = some (some toks) := by
    intro fuel hf
    unfold tokenize
    split
    · exact ⟨_, rfl⟩
    · exact loop_no_panic hg fuel text hf ha
  obtain ⟨toks, h0⟩ := mono (text.length + 1) (by omega)
  have stable : ∀ n t (r : Option (List RawToken)), tokenizeLoop g n t = some r → ∀ m ≥ n, tokenizeLoop g m t = some r := by
    intro n
    induction n with
    | zero => intro t r h; simp [tokenizeLoop] at h
    | succ n ih =>
      intro t r h m hm
      obtain ⟨m, rfl⟩ : ∃ k, m = k + 1 := ⟨m - 1, by omega⟩
      rw [tokenizeLoop] at h ⊢
      cases hf : findToken g t with
      | none => rw [hf] at h; exact h
      | some p =>
        obtain ⟨tok, len⟩ := p
        rw [hf] at h
        by_cases he : tok = .EOF
        · subst he; exact h
        · cases hs : split len t with
          | none => cases tok <;> first | exact absurd rfl he | (simp only [hs] at h ⊢; exact h)
          | some p =>
            obtain ⟨a, b⟩ := p
            cases hk : syntaxKind tok with
            | none => cases tok <;> first | exact absurd rfl he | (simp only [hs, hk] at h ⊢; exact h)
            | some kind =>
              have key : ∀ x, tokenizeLoop g n b = some x → tokenizeLoop g m b = some x :=
                fun x hx => ih b x hx m (by omega)
              have h' : (tokenizeLoop g n b).map (·.map (⟨kind, len⟩ :: ·)) = some r := by
                cases tok <;> first | exact absurd rfl he | (simp only [hs, hk] at h; exact h)
              have goal : (tokenizeLoop g m b).map (·.map (⟨kind, len⟩ :: ·)) = some r := by
                simp only [Option.map_eq_some_iff] at h' ⊢
                obtain ⟨x, hx, hx'⟩ := h'
                exact ⟨x, key x hx, hx'⟩
              cases tok <;> first | exact absurd rfl he | (simp only [hs, hk]; exact goal)
  refine ⟨text.length + 1, toks, fun fuel hf => ?_, C25_tokens_tile_text hg _ text toks h0⟩
  unfold tokenize at h0 ⊢
  split
  · rw [if_pos ‹_›] at h0; exact h0
  · rw [if_neg ‹_›] at h0; exact stable _ _ _ h0 fuel hf

/-- One character per grapheme cluster: a segmentation that meets the contract. -/
def oneChar : List Char → Nat := fun _ => 1

example : Graphemes oneChar := fun _ _ => Nat.le_refl 1

example : tokenize oneChar 20 "let é /* c */".toList = some (some
    [⟨.LET_KW, 3⟩, ⟨.WHITESPACE, 1⟩, ⟨.BAD_CHARACTER, 2⟩, ⟨.WHITESPACE, 1⟩, ⟨.COMMENT, 7⟩]) := by
  decide +kernel

/-- **C26 fails.** A comment that contains a non-ASCII character is cut short: the tokens of `/* é */` are a
comment of seven bytes and a slash. This holds for every segmentation that splits ASCII characters. -/
theorem C26_cut_short_fails (g : List Char → Nat) (h1 : g "/* é */".toList = 1) (h2 : g "/".toList = 1) :
    ∀ fuel ≥ 3, tokenize g fuel "/* é */".toList = some (some [⟨.COMMENT, 7⟩, ⟨.SLASH, 1⟩]) := by
  intro fuel hf
  obtain ⟨k, rfl⟩ : ∃ k, fuel = k + 3 := ⟨fuel - 3, by omega⟩
  have e1 : findToken g "/* é */".toList = some (.BlockComment, 7) := by
    unfold findToken; simp only [h1]; decide +kernel
  have e2 : findToken g "/".toList = some (.Slash, 1) := by
    unfold findToken; simp only [h2]; decide +kernel
  have s1 : split 7 "/* é */".toList = some ("/* é *".toList, "/".toList) := by decide +kernel
  have s2 : split 1 "/".toList = some ("/".toList, []) := by decide +kernel
  rw [tokenize, if_neg (by decide), loop_step e1 (by decide) rfl, s1]
  simp only
  rw [loop_step e2 (by decide) rfl, s2]
  simp only
  rw [loop_nil]
  rfl

/-- **C26 fails (panic).** Lexing `/*ééé*/` slices inside a character and panics. -/
theorem C26_panics_fails (g : List Char → Nat) (h1 : g "/*ééé*/".toList = 1) :
    ∀ fuel ≥ 1, tokenize g fuel "/*ééé*/".toList = some none := by
  intro fuel hf
  obtain ⟨k, rfl⟩ : ∃ k, fuel = k + 1 := ⟨fuel - 1, by omega⟩
  have e1 : findToken g "/*ééé*/".toList = some (.BlockComment, 7) := by
    unfold findToken; simp only [h1]; decide +kernel
  have s1 : split 7 "/*ééé*/".toList = none := by decide +kernel
  rw [tokenize, if_neg (by decide), loop_step e1 (by decide) rfl, s1]

end Verif.Lexer
