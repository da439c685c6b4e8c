import Verif.Lexer.Props

/-! Property theorems C56 (the kind of a token agrees with its text) and C57 (the names accepted by a
rename). -/

namespace Verif.Lexer
open Verif.Syntax (SyntaxKind)

/-! ### What the kinds mean -/

/-- Punctuation, from the macro `T!` (generated.rs 426). -/
def punctuation : List (SyntaxKind × List Char) := [
    (.SEMICOLON, [';']), (.COMMA, [',']), (.L_PAREN, ['(']), (.R_PAREN, [')']), (.L_CURLY, ['{']),
    (.R_CURLY, ['}']), (.L_BRACK, ['[']), (.R_BRACK, [']']), (.L_ANGLE, ['<']), (.R_ANGLE, ['>']),
    (.AT, ['@']), (.POUND, ['#']), (.AMP, ['&']), (.PIPE, ['|']), (.PLUS, ['+']), (.STAR, ['*']),
    (.SLASH, ['/']), (.CARET, ['^']), (.PERCENT, ['%']), (.DOT, ['.']), (.DOT_DOT, ['.', '.']),
    (.COLON, [':']), (.COLON_COLON, [':', ':']), (.EQ, ['=']), (.EQ_EQ, ['=', '=']),
    (.FAT_ARROW, ['=', '>']), (.IMPLIES, ['=', '=', '>']), (.BANG, ['!']), (.NOT_EQ, ['!', '=']),
    (.MINUS, ['-']), (.PLUS_EQ, ['+', '=']), (.MINUS_EQ, ['-', '=']), (.PIPE_EQ, ['|', '=']),
    (.AMP_EQ, ['&', '=']), (.CARET_EQ, ['^', '=']), (.SLASH_EQ, ['/', '=']), (.STAR_EQ, ['*', '=']),
    (.PERCENT_EQ, ['%', '='])
  ]

/-- Reserved words of the lexer, from the macro `T!` (generated.rs 426). -/
def keywords : List (SyntaxKind × List Char) := [
    (.MODULE_KW, ['m', 'o', 'd', 'u', 'l', 'e']), (.SCRIPT_KW, ['s', 'c', 'r', 'i', 'p', 't']),
    (.SPEC_KW, ['s', 'p', 'e', 'c']), (.FUN_KW, ['f', 'u', 'n']),
    (.STRUCT_KW, ['s', 't', 'r', 'u', 'c', 't']), (.CONST_KW, ['c', 'o', 'n', 's', 't']),
    (.FRIEND_KW, ['f', 'r', 'i', 'e', 'n', 'd']), (.USE_KW, ['u', 's', 'e']),
    (.PUBLIC_KW, ['p', 'u', 'b', 'l', 'i', 'c']), (.NATIVE_KW, ['n', 'a', 't', 'i', 'v', 'e']),
    (.IF_KW, ['i', 'f']), (.ELSE_KW, ['e', 'l', 's', 'e']), (.TRUE_KW, ['t', 'r', 'u', 'e']),
    (.FALSE_KW, ['f', 'a', 'l', 's', 'e']), (.LOOP_KW, ['l', 'o', 'o', 'p']),
    (.WHILE_KW, ['w', 'h', 'i', 'l', 'e']), (.CONTINUE_KW, ['c', 'o', 'n', 't', 'i', 'n', 'u', 'e']),
    (.BREAK_KW, ['b', 'r', 'e', 'a', 'k']), (.AS_KW, ['a', 's']),
    (.RETURN_KW, ['r', 'e', 't', 'u', 'r', 'n']), (.MOVE_KW, ['m', 'o', 'v', 'e']),
    (.LET_KW, ['l', 'e', 't']), (.MUT_KW, ['m', 'u', 't']), (.ABORT_KW, ['a', 'b', 'o', 'r', 't']),
    (.INVARIANT_KW, ['i', 'n', 'v', 'a', 'r', 'i', 'a', 'n', 't']),
    (.ACQUIRES_KW, ['a', 'c', 'q', 'u', 'i', 'r', 'e', 's']),
    (.INLINE_KW, ['i', 'n', 'l', 'i', 'n', 'e']), (.UNDERSCORE, ['_'])
  ]

/-- A name: letters, digits and underscores, not starting with a digit. -/
def IsName (a : List Char) : Prop :=
  ∃ c cs, a = c :: cs ∧ (isLetter c = true ∨ c = '_') ∧ ∀ d ∈ cs, isLetter d = true ∨ d = '_' ∨ isDigit d = true

/-- The next character does not continue a name. -/
def NameEnds (rest : List Char) : Prop :=
  ∀ d ds, rest = d :: ds → ¬ (isLetter d = true ∨ d = '_' ∨ isDigit d = true)

/-- What the kind of a token says about its text `a` and about what follows it. -/
structure Describes (k : SyntaxKind) (a rest : List Char) : Prop where
  punct : ∀ s, (k, s) ∈ punctuation → a = s ∧ ∀ q ∈ punctuation, q.2 <+: a ++ rest → q.2.length ≤ s.length
  keyword : ∀ s, (k, s) ∈ keywords → a = s ∧ NameEnds rest
  ident : k = .IDENT → IsName a ∧ (∀ k' s, (k', s) ∈ keywords → a ≠ s) ∧ NameEnds rest
  space : k = .WHITESPACE → (∀ c ∈ a, c = ' ' ∨ c = '\t' ∨ c = '\n') ∧
    ∀ d ds, rest = d :: ds → ¬ (d = ' ' ∨ d = '\t' ∨ d = '\n')
  number : k = .INT_NUMBER → ∃ c cs, a = c :: cs ∧ isDigit c = true
  comment : k = .COMMENT → ['/', '*'] <+: a ∨
    (['/', '/'] <+: a ∧ '\n' ∉ a ∧ (rest = [] ∨ ['\n'] <+: rest ∨ ['\r', '\n'] <+: rest))
  label : k = .QUOTE_IDENT → ∃ cs, a = '\'' :: cs ∧ IsName cs ∧ NameEnds rest
  hex : k = .HEX_STRING → ['x', '"'] <+: a ∧ '\n' ∉ a
  bytes : k = .BYTE_STRING → ['b', '"'] <+: a ∧ '\n' ∉ a
  known : k ∈ punctuation.map (·.1) ∨ k ∈ keywords.map (·.1) ∨
    k ∈ [.IDENT, .WHITESPACE, .INT_NUMBER, .COMMENT, .QUOTE_IDENT, .HEX_STRING, .BYTE_STRING, .BAD_CHARACTER]

/-- The kinds without a fixed text. -/
def free : List SyntaxKind :=
  [.IDENT, .WHITESPACE, .INT_NUMBER, .COMMENT, .QUOTE_IDENT, .HEX_STRING, .BYTE_STRING, .BAD_CHARACTER]

/-- The punctuation that extends `s`. -/
def longer (s : List Char) : List (SyntaxKind × List Char) :=
  punctuation.filter fun q => s.isPrefixOf q.2 && decide (s.length < q.2.length)

theorem Describes.of_punct {k : SyntaxKind} {a rest s : List Char} (ha : a = s)
    (hl : ∀ q ∈ longer s, ¬ q.2 <+: a ++ rest)
    (hk : k ∈ punctuation.map (·.1)) (h : ∀ p ∈ punctuation, p.1 = k → p.2 = s)
    (h2 : ∀ p ∈ keywords, p.1 ≠ k) (h3 : k ∉ free) : Describes k a rest where
  punct s' hs := by
    have e : s' = s := h _ hs rfl
    subst e
    refine ⟨ha, fun q hq hp => ?_⟩
    by_contra hlt
    have hpre : s' <+: q.2 := List.prefix_of_prefix_length_le ⟨rest, by rw [ha]⟩ hp (by omega)
    exact hl q (List.mem_filter.2 ⟨hq, by simp [hpre]; omega⟩) hp
  keyword s' hs := absurd rfl (h2 _ hs)
  ident e := absurd (by rw [e]; decide) h3
  space e := absurd (by rw [e]; decide) h3
  number e := absurd (by rw [e]; decide) h3
  comment e := absurd (by rw [e]; decide) h3
  label e := absurd (by rw [e]; decide) h3
  hex e := absurd (by rw [e]; decide) h3
  bytes e := absurd (by rw [e]; decide) h3
  known := Or.inl hk

theorem not_free {k : SyntaxKind} (hk : k ∈ free) : (∀ s, (k, s) ∉ punctuation) ∧ ∀ s, (k, s) ∉ keywords := by
  have h1 : ∀ p ∈ punctuation, p.1 ∉ free := by decide +kernel
  have h2 : ∀ p ∈ keywords, p.1 ∉ free := by decide +kernel
  exact ⟨fun s hs => h1 _ hs hk, fun s hs => h2 _ hs hk⟩

/-! ### The cases of the lexer -/

/-- What is known about the result of `find_token`. -/
def Sound (text : List Char) (p : Tok × Nat) : Prop :=
  ∀ a rest k, text = a ++ rest → blen a = p.2 → syntaxKind p.1 = some k → Describes k a rest

theorem Sound.ite {text : List Char} {c : Prop} [Decidable c] {p q : Tok × Nat} (h1 : c → Sound text p)
    (h2 : ¬ c → Sound text q) : Sound text (if c then p else q) := by
  split
  · exact h1 ‹_›
  · exact h2 ‹_›

theorem prefix_unique {text a s rest : List Char} (h1 : text = a ++ rest) (h2 : s <+: text)
    (h3 : blen a = blen s) : a = s := by
  have e1 := split_complete a rest
  obtain ⟨r, hr⟩ := h2
  have e2 := split_complete s r
  rw [hr, ← h3] at e2
  rw [← h1, e2] at e1
  simp only [Option.some.injEq, Prod.mk.injEq] at e1
  exact e1.1.symm

theorem Sound.punct {text s : List Char} {t : Tok} {k : SyntaxKind} (h : s <+: text) (hs : Ascii s)
    (hl : ∀ q ∈ longer s, ¬ startsWith text q.2 = true)
    (hk : syntaxKind t = some k) (h0 : k ∈ punctuation.map (·.1)) (h1 : ∀ p ∈ punctuation, p.1 = k → p.2 = s)
    (h2 : ∀ p ∈ keywords, p.1 ≠ k) (h3 : k ∉ free) : Sound text (t, s.length) := by
  intro a rest k' e1 e2 e3
  rw [hk] at e3; cases e3
  exact .of_punct (prefix_unique e1 h (by rw [e2, hs.blen]))
    (fun q hq hp => hl q hq ((startsWith_iff _ _).2 (e1 ▸ hp))) h0 h1 h2 h3

theorem Sound.bad {text : List Char} {n : Nat} : Sound text (.BadCharacter, n) := by
  intro a rest k _ _ hk
  cases hk
  have nf := not_free (k := .BAD_CHARACTER) (by decide)
  exact ⟨fun s hs => absurd hs (nf.1 s), fun s hs => absurd hs (nf.2 s), nofun, nofun, nofun, nofun, nofun,
    nofun, nofun, Or.inr (Or.inr (by decide))⟩

theorem punctToken_sound {text curr : List Char} (h : curr <+: text) : Sound text (punctToken text curr) := by
  unfold punctToken
  repeat' (refine Sound.ite (fun hc => ?_) (fun _ => ?_))
  all_goals first
    | exact Sound.bad
    | refine Sound.punct ((startsWith_iff _ _).1 hc) (by decide) ?_ rfl (by decide +kernel) (by decide +kernel)
        (by decide +kernel) (by decide +kernel)
    | (subst hc
       refine Sound.punct h (by decide) ?_ rfl (by decide +kernel) (by decide +kernel) (by decide +kernel)
         (by decide +kernel))
  all_goals first
    | (have e : ∀ s, longer s = [] → ∀ q ∈ longer s, ¬ startsWith text q.2 = true := by
         intro s hs q hq; rw [hs] at hq; cases hq
       exact e _ (by decide +kernel))
    | simp_all [longer, punctuation, List.isPrefixOf]

theorem isNameChar_iff (d : Char) :
    isNameChar d = true ↔ (isLetter d = true ∨ d = '_' ∨ isDigit d = true) := by
  simp only [isNameChar, Bool.or_eq_true, beq_iff_eq, or_assoc]

theorem dropWhile_head {p : Char → Bool} {text : List Char} {d : Char} {ds : List Char}
    (h : text.dropWhile p = d :: ds) : p d = false := by
  induction text with
  | nil => simp at h
  | cons c cs ih =>
    rw [List.dropWhile_cons] at h
    split at h
    · exact ih h
    · rename_i hn; cases h; exact Bool.eq_false_iff.2 hn

theorem takeWhile_unique {p : Char → Bool} {text a rest : List Char} (h1 : text = a ++ rest)
    (h2 : blen a = blen (text.takeWhile p)) : a = text.takeWhile p ∧ rest = text.dropWhile p := by
  have ha := prefix_unique h1 (List.takeWhile_prefix p) h2
  refine ⟨ha, ?_⟩
  have e := takeWhile_prefix' p text
  rw [h1, ha] at e
  conv at e => lhs; rw [ha.symm]
  have e2 := h1.symm.trans (takeWhile_prefix' p text)
  rw [← ha] at e2
  exact List.append_cancel_left e2

theorem nameToken_cases (name : List Char) (k : SyntaxKind) (h : syntaxKind (nameToken name) = some k) :
    ((k, name) ∈ keywords ∧ k ∉ free ∧ (∀ p ∈ keywords, p.1 = k → p.2 = name) ∧ ∀ p ∈ punctuation, p.1 ≠ k) ∨
      (k = .IDENT ∧ ∀ k' s, (k', s) ∈ keywords → name ≠ s) := by
  unfold nameToken at h
  by_cases hk : ∃ k', (k', name) ∈ keywords
  · left
    obtain ⟨k', hk'⟩ := hk
    have hall : ∀ p ∈ keywords, syntaxKind (nameToken p.2) = some p.1 ∧ p.1 ∉ free ∧
        (∀ q ∈ keywords, q.1 = p.1 → q.2 = p.2) ∧ ∀ q ∈ punctuation, q.1 ≠ p.1 := by decide +kernel
    obtain ⟨h1, h2⟩ := hall _ hk'
    simp only [nameToken] at h1
    rw [h] at h1
    cases h1
    exact ⟨hk', h2⟩
  · right
    have hne : ∀ p ∈ keywords, name ≠ p.2 := fun p hp e => hk ⟨p.1, by rw [e]; exact hp⟩
    refine ⟨?_, fun k' s hs => hne _ hs⟩
    simp only [keywords, List.forall_mem_cons, List.not_mem_nil, false_implies, implies_true, and_true] at hne
    simp only [hne, if_false] at h
    cases h
    rfl

theorem name_sound {text : List Char} {c : Char} (hp : [c] <+: text) (hc : isLetter c = true ∨ c = '_') :
    Sound text (nameToken (text.takeWhile isNameChar), blen (text.takeWhile isNameChar)) := by
  intro a rest k e1 e2 hk
  obtain ⟨ha, hr⟩ := takeWhile_unique e1 e2
  have hends : NameEnds rest := by
    intro d ds hd
    rw [hr] at hd
    rw [← isNameChar_iff, dropWhile_head hd]; simp
  have hname : IsName a := by
    obtain ⟨r, rfl⟩ := hp
    have hc' : isNameChar c = true := (isNameChar_iff c).2 (by tauto)
    refine ⟨c, r.takeWhile isNameChar, by rw [ha]; simp [hc'], hc, ?_⟩
    intro d hd
    exact (isNameChar_iff d).1 (List.mem_takeWhile_imp hd)
  rw [← ha] at hk
  rcases nameToken_cases _ _ hk with ⟨h1, h2, h3, h4⟩ | ⟨rfl, h⟩
  · exact ⟨fun s hs => absurd rfl (h4 _ hs), fun s hs => ⟨(h3 _ hs rfl).symm, hends⟩,
      fun e => absurd (by rw [e]; decide) h2, fun e => absurd (by rw [e]; decide) h2,
      fun e => absurd (by rw [e]; decide) h2, fun e => absurd (by rw [e]; decide) h2,
      fun e => absurd (by rw [e]; decide) h2, fun e => absurd (by rw [e]; decide) h2,
      fun e => absurd (by rw [e]; decide) h2, Or.inr (Or.inl (List.mem_map.2 ⟨_, h1, rfl⟩))⟩
  · have nf := not_free (k := .IDENT) (by decide)
    exact ⟨fun s hs => absurd hs (nf.1 s), fun s hs => absurd hs (nf.2 s), fun _ => ⟨hname, h, hends⟩,
      nofun, nofun, nofun, nofun, nofun, nofun, Or.inr (Or.inr (by decide))⟩

theorem space_sound {text : List Char} : Sound text (.Whitespace, blen (text.takeWhile isSpace)) := by
  intro a rest k e1 e2 hk
  cases hk
  obtain ⟨ha, hr⟩ := takeWhile_unique e1 e2
  have nf := not_free (k := .WHITESPACE) (by decide)
  refine ⟨fun s hs => absurd hs (nf.1 s), fun s hs => absurd hs (nf.2 s), nofun, fun _ => ⟨?_, ?_⟩,
    nofun, nofun, nofun, nofun, nofun, Or.inr (Or.inr (by decide))⟩
  · intro c hc
    rw [ha] at hc
    have := List.mem_takeWhile_imp hc
    simpa [isSpace, or_assoc] using this
  · intro d ds hd
    rw [hr] at hd
    have := dropWhile_head hd
    simpa [isSpace, and_assoc] using this

theorem number_sound {text : List Char} {c : Char} {t : Tok} {n : Nat} (hp : [c] <+: text)
    (hc : isDigit c = true) (ht : t = .NumValue ∨ t = .NumTypedValue) (hn : n ≠ 0) : Sound text (t, n) := by
  intro a rest k e1 e2 hk
  have : k = .INT_NUMBER := by
    rcases ht with rfl | rfl <;> (cases hk; rfl)
  subst this
  have nf := not_free (k := .INT_NUMBER) (by decide)
  refine ⟨fun s hs => absurd hs (nf.1 s), fun s hs => absurd hs (nf.2 s), nofun, nofun, fun _ => ?_,
    nofun, nofun, nofun, nofun, Or.inr (Or.inr (by decide))⟩
  cases a with
  | nil => exact absurd e2.symm hn
  | cons d ds =>
    obtain ⟨r, hr⟩ := hp
    rw [e1] at hr
    simp only [List.cons_append, List.nil_append, List.cons.injEq] at hr
    exact ⟨d, ds, rfl, hr.1 ▸ hc⟩

theorem firstLine_no_newline (text : List Char) : '\n' ∉ firstLine text := by
  intro h
  have : '\n' ∈ text.takeWhile (· ≠ '\n') := by
    unfold firstLine at h
    simp only at h
    split at h
    · exact (List.dropLast_prefix _).subset h
    · exact h
  have := List.mem_takeWhile_imp this
  simp at this

theorem firstLine_rest (text : List Char) : ∃ rest, text = firstLine text ++ rest ∧
    (rest = [] ∨ ['\n'] <+: rest ∨ ['\r', '\n'] <+: rest) := by
  have e := takeWhile_prefix' (· ≠ '\n') text
  have hd : text.dropWhile (· ≠ '\n') = [] ∨ ['\n'] <+: text.dropWhile (· ≠ '\n') := by
    cases h : text.dropWhile (· ≠ '\n') with
    | nil => exact Or.inl rfl
    | cons d ds =>
      have := dropWhile_head h
      simp only [ne_eq, decide_not, Bool.not_eq_eq_eq_not, Bool.not_false, decide_eq_true_eq] at this
      exact Or.inr ⟨ds, by rw [this]; rfl⟩
  unfold firstLine
  simp only
  split
  · rename_i hc
    obtain ⟨h1, h2⟩ := hc
    obtain ⟨w, hw⟩ := List.getLast?_eq_some_iff.1 h2
    refine ⟨'\r' :: text.dropWhile (· ≠ '\n'), ?_, ?_⟩
    · conv => lhs; rw [e]
      rw [hw]; simp
    · rcases hd with hd | ⟨r, hr⟩
      · rw [hd, List.append_nil] at e
        rw [← e] at h1
        omega
      · exact Or.inr (Or.inr ⟨r, by rw [← hr]; rfl⟩)
  · exact ⟨_, e, by rcases hd with hd | hd <;> tauto⟩

theorem no_newline_of_prefix {m text : List Char} (h : m <+: firstLine text) : '\n' ∉ m :=
  fun hm => firstLine_no_newline text (h.subset hm)

theorem hex_sound {text m : List Char} (hp : m <+: firstLine text) (h2 : ['x', '"'] <+: m) :
    Sound text (.HexStringValue, blen m) := by
  intro a rest k e1 e2 hk
  cases hk
  have ha := prefix_unique e1 (hp.trans (firstLine_prefix text)) e2
  have nf := not_free (k := .HEX_STRING) (by decide)
  exact ⟨fun s hs => absurd hs (nf.1 s), fun s hs => absurd hs (nf.2 s), nofun, nofun, nofun, nofun, nofun,
    fun _ => ⟨ha ▸ h2, ha ▸ no_newline_of_prefix hp⟩, nofun, Or.inr (Or.inr (by decide))⟩

theorem bytes_sound {text m : List Char} (hp : m <+: firstLine text) (h2 : ['b', '"'] <+: m) :
    Sound text (.ByteStringValue, blen m) := by
  intro a rest k e1 e2 hk
  cases hk
  have ha := prefix_unique e1 (hp.trans (firstLine_prefix text)) e2
  have nf := not_free (k := .BYTE_STRING) (by decide)
  exact ⟨fun s hs => absurd hs (nf.1 s), fun s hs => absurd hs (nf.2 s), nofun, nofun, nofun, nofun, nofun,
    nofun, fun _ => ⟨ha ▸ h2, ha ▸ no_newline_of_prefix hp⟩, Or.inr (Or.inr (by decide))⟩

theorem line_comment_sound {text : List Char} (h2 : ['/', '/'] <+: firstLine text) :
    Sound text (.LineComment, blen (firstLine text)) := by
  intro a rest k e1 e2 hk
  cases hk
  have ha := prefix_unique e1 (firstLine_prefix text) e2
  obtain ⟨rest', r1, r2⟩ := firstLine_rest text
  have hr : rest = rest' := by
    have h3 := e1.symm.trans r1
    rw [ha] at h3
    exact List.append_cancel_left h3
  have nf := not_free (k := .COMMENT) (by decide)
  exact ⟨fun s hs => absurd hs (nf.1 s), fun s hs => absurd hs (nf.2 s), nofun, nofun, nofun,
    fun _ => Or.inr ⟨ha ▸ h2, ha ▸ firstLine_no_newline text, hr ▸ r2⟩, nofun, nofun, nofun,
    Or.inr (Or.inr (by decide))⟩

theorem label_sound {text m : List Char} (h : quoteIdentMatch text = some m) : Sound text (.Label, blen m) := by
  intro a rest k e1 e2 hk
  cases hk
  have ha := prefix_unique e1 (quoteIdentMatch_prefix _ _ h).1 e2
  subst ha
  have nf := not_free (k := .QUOTE_IDENT) (by decide)
  refine ⟨fun s hs => absurd hs (nf.1 s), fun s hs => absurd hs (nf.2 s), nofun, nofun, nofun, nofun,
    fun _ => ?_, nofun, nofun, Or.inr (Or.inr (by decide))⟩
  unfold quoteIdentMatch at h
  split at h
  · rename_i c cs
    split at h
    · rename_i hc
      simp only [Option.some.injEq] at h
      subst h
      simp only [Bool.or_eq_true, beq_iff_eq] at hc
      refine ⟨_, rfl, ⟨c, _, rfl, hc, fun d hd => (isNameChar_iff d).1 (List.mem_takeWhile_imp hd)⟩, ?_⟩
      simp only [List.cons_append, List.cons.injEq, true_and] at e1
      have e3 := e1.symm.trans (takeWhile_prefix' isNameChar cs)
      have hr := List.append_cancel_left e3
      intro d ds hd
      rw [hr] at hd
      rw [← isNameChar_iff, dropWhile_head hd]; simp
    · cases h
  · cases h

theorem block_comment_sound {text : List Char} (h : ['/', '*'] <+: text) :
    Sound text (.BlockComment, blockCommentLen text) := by
  intro a rest k e1 e2 hk
  cases hk
  have nf := not_free (k := .COMMENT) (by decide)
  refine ⟨fun s hs => absurd hs (nf.1 s), fun s hs => absurd hs (nf.2 s), nofun, nofun, nofun,
    fun _ => Or.inl ?_, nofun, nofun, nofun, Or.inr (Or.inr (by decide))⟩
  obtain ⟨body, rfl⟩ := h
  have hlen : 2 ≤ blen a := by
    rw [e2]
    unfold blockCommentLen
    rcases blockLoop_spec (blen (['/', '*'] ++ body)) ((['/', '*'] ++ body).drop 2) 0 0 with ⟨k, -, hk⟩ | ⟨-, hk | hk⟩
    · omega
    · omega
    · rw [hk, blen_append]
      have : blen ['/', '*'] = 2 := rfl
      omega
  cases a with
  | nil => simp [blen] at hlen
  | cons c cs =>
    simp only [List.cons_append, List.nil_append, List.cons.injEq] at e1
    obtain ⟨rfl, e1⟩ := e1
    cases cs with
    | nil => exact absurd hlen (by decide)
    | cons d ds =>
      simp only [List.cons_append, List.cons.injEq] at e1
      obtain ⟨rfl, -⟩ := e1
      exact ⟨ds, rfl⟩

theorem findToken_sound {g : List Char → Nat} {text : List Char} {p : Tok × Nat} (hne : text ≠ [])
    (h : findToken g text = some p) : Sound text p := by
  have hcp : text.take (g text) <+: text := List.take_prefix _ _
  unfold findToken at h
  rw [if_neg hne] at h
  simp only at h
  generalize text.take (g text) = curr at hcp h
  split at h
  · rename_i hc
    cases h
    exact line_comment_sound (prefix_firstLine ((startsWith_iff _ _).1 hc.2) (by decide) (by decide) (by decide))
  split at h
  · rename_i hc
    cases h
    exact block_comment_sound ((startsWith_iff _ _).1 hc.2)
  split at h
  · cases h
    unfold wsLen
    rw [positionNot_eq _ isSpace_ascii]
    exact space_sound
  split at h
  · rename_i hnum
    obtain ⟨c, rfl, hc⟩ := isNum_spec hnum
    split at h
    · rename_i hx
      unfold hexNumber numberMaybeWithSuffix at h
      simp only [Option.map_eq_some_iff] at h
      obtain ⟨q, ⟨r, hr, rfl⟩, rfl⟩ := h
      obtain ⟨s1, s2⟩ := split_sound _ _ _ _ hr
      have hs := (numberSuffix_spec' s1 s2).2
      split
      · exact number_sound hcp hc (Or.inl rfl) (by decide)
      · exact number_sound hcp hc hs (by omega)
    · unfold decimalNumber numberMaybeWithSuffix at h
      rw [positionNot_eq _ decDigit_ascii] at h
      simp only [Option.map_eq_some_iff] at h
      obtain ⟨r, hr, rfl⟩ := h
      obtain ⟨s1, s2⟩ := split_sound _ _ _ _ hr
      have hne' : r.1 ≠ [] := by
        intro h0
        rw [h0] at s2
        have := blen_pos (a := text.takeWhile fun c => isDigit c || c == '_') (by
          obtain ⟨r, rfl⟩ := hcp
          simp [hc])
        rw [← s2] at this
        simp [blen] at this
      obtain ⟨⟨x, y, -, h4, h5⟩, hs⟩ := numberSuffix_spec s1 s2 hne'
      generalize numberSuffix _ _ = q at h4 hs
      exact number_sound (t := q.1) (n := q.2) hcp hc hs (by rw [← h4]; exact Nat.pos_iff_ne_zero.1 (blen_pos h5))
  split at h
  · rename_i hal
    have hal' : ∃ c, curr = [c] ∧ (isLetter c = true ∨ c = '_') := by
      unfold isAlphabetic at hal
      split at hal
      · exact ⟨_, rfl, by simpa using hal⟩
      · cases hal
    obtain ⟨c, rfl, hc⟩ := hal'
    split at h
    · rename_i hx
      have hl := prefix_firstLine ((startsWith_iff _ _).1 hx) (by decide) (by decide) (by decide)
      obtain ⟨m, h1, h2, h3⟩ := hexStringMatch_spec _ hl
      rw [h1] at h
      cases h
      refine hex_sound h2 ?_
      unfold hexStringMatch at h1
      rw [if_pos ((startsWith_iff _ _).2 hl)] at h1
      cases h1
      exact ⟨_, by rw [List.append_assoc]⟩
    split at h
    · rename_i hx
      have hl := prefix_firstLine ((startsWith_iff _ _).1 hx) (by decide) (by decide) (by decide)
      split at h
      · rename_i m hm
        cases h
        refine bytes_sound (byteStringMatch_prefix _ _ hm).1 ?_
        unfold byteStringMatch at hm
        split at hm
        · simp only [Option.map_eq_some_iff] at hm
          obtain ⟨m', -, rfl⟩ := hm
          exact ⟨_, rfl⟩
        · cases hm
      · cases h
        exact bytes_sound List.prefix_rfl hl
    · unfold nameLen at h
      rw [positionNot_eq _ isNameChar_ascii] at h
      simp only [Option.map_eq_some_iff] at h
      obtain ⟨⟨r1, r2⟩, hr, rfl⟩ := h
      obtain ⟨s1, s2⟩ := split_sound _ _ _ _ hr
      rw [(takeWhile_unique s1 s2).1]
      exact name_sound hcp hc
  split at h
  · split at h
    · rename_i m hm
      cases h
      exact label_sound hm
    · cases h
      exact Sound.bad
  split at h
  · cases h
    exact Sound.bad
  · cases h
    exact punctToken_sound hcp

/-! ### C56 -/

/-- The tokens in order, each with a non-empty text that agrees with its kind; the texts are the source. -/
inductive Classified : List Char → List RawToken → Prop
  | nil : Classified [] []
  | cons (a rest k toks) : a ≠ [] → Describes k a rest → Classified rest toks →
      Classified (a ++ rest) (⟨k, blen a⟩ :: toks)

theorem loop_classified {g : List Char → Nat} (hg : Graphemes g) (fuel : Nat) (text : List Char)
    (toks : List RawToken) (h : tokenizeLoop g fuel text = some (some toks)) : Classified text toks := by
  induction fuel generalizing text toks with
  | zero => simp [tokenizeLoop] at h
  | succ fuel ih =>
    by_cases hne : text = []
    · subst hne
      rw [loop_nil] at h
      cases h
      exact .nil
    · obtain ⟨tok, len, kind, h1, h2, h3, h4⟩ := step_spec hg hne
      rw [loop_step h1 h2 h3] at h
      rcases h4 with ⟨a, b, e1, e2, e3, e4⟩ | ⟨e4, -⟩
      · rw [e4] at h
        simp only [Option.map_eq_some_iff] at h
        obtain ⟨r, hr, rs, hrs, rfl⟩ := h
        have hd := findToken_sound hne h1 a b kind e1 e2 h3
        rw [e1, ← e2]
        exact .cons a b kind rs e3 hd (ih b rs (by rw [hr, hrs]))
      · rw [e4] at h; cases h

/-- **C56.** In every list of tokens the lexer returns, the text of each token is what its kind says:
punctuation and keywords have their spelling, no longer punctuation starts there, identifiers are maximal names that are not reserved, white
space is maximal, numbers start with a digit, comments and strings with their opening, and line comments
reach to the end of the line. -/
theorem C56_kinds_agree_with_text {g : List Char → Nat} (hg : Graphemes g) (fuel : Nat) (text : List Char)
    (toks : List RawToken) (h : tokenize g fuel text = some (some toks)) : Classified text toks := by
  unfold tokenize at h
  split at h
  · rename_i h0
    cases h; rw [h0]
    exact .nil
  · exact loop_classified hg fuel text toks h

/-! ### C57 -/

/-- `parse_single_token` (lexer.rs 51-57). -/
def parseSingleToken (g : List Char → Nat) (fuel : Nat) (text : List Char) : Option (Option (Option RawToken)) :=
  (tokenize g fuel text).map fun r => r.map fun toks =>
    match toks with
    | [t] => some t
    | _ => none

/-- `IdentifierKind` (ide-db/src/rename.rs 193-198). -/
inductive IdentifierKind where
  | Ident | Label | Underscore
deriving DecidableEq, Repr

/-- `IdentifierKind::classify` (ide-db/src/rename.rs 201-219). The innermost `none` is the error reported to
the user; which of the two messages is used is left out. -/
def classify (g : List Char → Nat) (fuel : Nat) (text : List Char) : Option (Option (Option IdentifierKind)) :=
  (parseSingleToken g fuel text).map fun r => r.map fun t =>
    match t with
    | none => none
    | some t =>
      match t.kind with
      | .IDENT => some .Ident
      | .QUOTE_IDENT => some .Label
      | .UNDERSCORE => some .Underscore
      | _ => none

/-- Further contract of the segmentation crate: an ASCII letter or underscore followed by another ASCII
character, or by nothing, is a cluster of its own. -/
def AsciiClusters (g : List Char → Nat) : Prop :=
  ∀ text c cs, text = c :: cs → Ascii text → c ≠ '\r' → text.take (g text) = [c]

theorem IsName.all {a : List Char} (h : IsName a) : ∀ d ∈ a, isNameChar d = true := by
  obtain ⟨c, cs, rfl, h1, h2⟩ := h
  intro d hd
  rw [isNameChar_iff]
  rcases List.mem_cons.1 hd with rfl | hd
  · tauto
  · exact h2 d hd

theorem tokenize_name {g : List Char → Nat} (ha : AsciiClusters g) {a : List Char} (h : IsName a)
    {k : SyntaxKind} (hk : syntaxKind (nameToken a) = some k) (fuel : Nat) :
    tokenize g (fuel + 2) a = some (some [⟨k, blen a⟩]) := by
  have hall := h.all
  have hasc : Ascii a := fun d hd => isNameChar_ascii d (hall d hd)
  obtain ⟨c, cs, rfl, h1, h2⟩ := h
  have hc : isNameChar c = true := hall c List.mem_cons_self
  have hcr : c ≠ '\r' := by rintro rfl; revert hc; decide
  have hcur := ha _ c cs rfl hasc hcr
  have hnd : isDigit c = false := by
    rcases h1 with h1 | rfl
    · simp only [isLetter, Bool.or_eq_true, Bool.and_eq_true] at h1
      rw [Bool.eq_false_iff]
      intro hd
      simp only [isDigit, Bool.and_eq_true] at hd
      have d2 := le_toNat hd.2
      have e1 : ('9' : Char).toNat = 57 := rfl
      have e2 : ('a' : Char).toNat = 97 := rfl
      have e3 : ('A' : Char).toNat = 65 := rfl
      rcases h1 with h1 | h1
      · have := le_toNat h1.1; omega
      · have := le_toNat h1.1; omega
    · rfl
  have htw : (c :: cs).takeWhile isNameChar = c :: cs := List.takeWhile_eq_self_iff.2 hall
  have hne : ∀ d, isNameChar d = false → [c] ≠ [d] := by
    rintro d hd e
    cases e
    rw [hc] at hd; cases hd
  have hq : ∀ x y, y ∉ [c] ++ cs → startsWith (c :: cs) [x, y] = false := by
    intro x y hy
    rw [Bool.eq_false_iff]
    intro hs
    obtain ⟨r, hr⟩ := (startsWith_iff _ _).1 hs
    apply hy
    rw [show [c] ++ cs = c :: cs from rfl, ← hr]
    simp
  have hquote : '"' ∉ [c] ++ cs := fun hm => by
    have := hall '"' hm
    revert this; decide
  have hft : findToken g (c :: cs) = some (nameToken (c :: cs), blen (c :: cs)) := by
    unfold findToken
    rw [if_neg (by simp)]
    simp only [hcur]
    rw [if_neg (fun h => hne '/' rfl h.1), if_neg (fun h => hne '/' rfl h.1), if_neg (by
      rintro (h | h | h)
      · exact hne ' ' rfl h
      · exact hne '\t' rfl h
      · exact hne '\n' rfl h), if_neg (by simp [isNum, hnd]), if_pos (by simpa [isAlphabetic] using h1),
      if_neg (by rw [hq _ _ hquote]; simp), if_neg (by rw [hq _ _ hquote]; simp)]
    unfold nameLen
    rw [positionNot_eq _ isNameChar_ascii, htw]
    have := split_complete (c :: cs) []
    rw [List.append_nil] at this
    rw [this]
    rfl
  have hspl : split (blen (c :: cs)) (c :: cs) = some (c :: cs, []) := by
    have := split_complete (c :: cs) []
    rwa [List.append_nil] at this
  rw [tokenize, if_neg (by simp), loop_step hft (by
    intro h0
    rw [h0] at hk; cases hk) hk, hspl]
  simp only
  rw [loop_nil]
  rfl

theorem Classified.single {text : List Char} {t : RawToken} (h : Classified text [t]) :
    Describes t.kind text [] := by
  cases h with
  | cons a rest k toks hne hd hr =>
    cases hr
    rw [List.append_nil]
    exact hd

/-- **C57.** A new name is accepted as an identifier if and only if it is made of letters, digits and
underscores, does not start with a digit and is not reserved (nor a single underscore). -/
theorem C57_accepts_exactly_identifiers {g : List Char → Nat} (hg : Graphemes g) (ha : AsciiClusters g)
    (text : List Char) : (∃ n, ∀ fuel ≥ n, classify g fuel text = some (some (some .Ident))) ↔
      IsName text ∧ ∀ k s, (k, s) ∈ keywords → text ≠ s := by
  constructor
  · rintro ⟨n, h⟩
    have h := h n (Nat.le_refl n)
    unfold classify parseSingleToken at h
    cases ht : tokenize g n text with
    | none => rw [ht] at h; cases h
    | some r =>
      cases r with
      | none => rw [ht] at h; cases h
      | some toks =>
        rw [ht] at h
        have hcl := C56_kinds_agree_with_text hg n text toks ht
        match toks, h, hcl with
        | [], h, _ => simp at h
        | _ :: _ :: _, h, _ => simp at h
        | [t], h, hcl =>
          have hk : t.kind = .IDENT := by
            simp only [Option.map_some, Option.some.injEq] at h
            split at h <;> simp_all
          have := (hcl.single).ident hk
          exact ⟨this.1, this.2.1⟩
  · rintro ⟨h1, h2⟩
    refine ⟨2, fun fuel hf => ?_⟩
    obtain ⟨m, rfl⟩ : ∃ m, fuel = m + 2 := ⟨fuel - 2, by omega⟩
    obtain ⟨k, hk⟩ := Option.isSome_iff_exists.1 (nameToken_spec text)
    have hi : k = .IDENT := by
      rcases nameToken_cases text k hk with ⟨h, -⟩ | ⟨h, -⟩
      · exact absurd rfl (h2 _ _ h)
      · exact h
    subst hi
    unfold classify parseSingleToken
    rw [tokenize_name ha h1 hk]
    rfl

/-- **C57 (kinds).** Whatever name is accepted, as identifier, label or underscore, its text is of that
form. -/
theorem C57_accepted_form {g : List Char → Nat} (hg : Graphemes g) (fuel : Nat) (text : List Char)
    (k : IdentifierKind) (h : classify g fuel text = some (some (some k))) :
    match k with
    | .Ident => IsName text
    | .Label => ∃ cs, text = '\'' :: cs ∧ IsName cs
    | .Underscore => text = ['_'] := by
  unfold classify parseSingleToken at h
  cases ht : tokenize g fuel text with
  | none => rw [ht] at h; cases h
  | some r =>
    cases r with
    | none => rw [ht] at h; cases h
    | some toks =>
      rw [ht] at h
      have hcl := C56_kinds_agree_with_text hg fuel text toks ht
      match toks, h, hcl with
      | [], h, _ => simp at h
      | _ :: _ :: _, h, _ => simp at h
      | [t], h, hcl =>
        have hd := hcl.single
        simp only [Option.map_some, Option.some.injEq] at h
        split at h
        · rename_i hk
          cases h
          exact (hd.ident hk).1
        · rename_i hk
          cases h
          obtain ⟨cs, e1, e2, -⟩ := hd.label hk
          exact ⟨cs, e1, e2⟩
        · rename_i hk
          cases h
          exact (hd.keyword ['_'] (by rw [hk]; decide +kernel)).1
        · cases h

example : classify oneChar 9 "coin_2".toList = some (some (some .Ident)) ∧
    classify oneChar 9 "fun".toList = some (some none) ∧
    classify oneChar 9 "a b".toList = some (some none) ∧
    classify oneChar 9 "'l".toList = some (some (some .Label)) := by decide +kernel

example : AsciiClusters oneChar := by
  rintro _ c cs rfl _ _
  rfl

end Verif.Lexer
