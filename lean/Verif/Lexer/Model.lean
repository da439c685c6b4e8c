import Verif.Syntax.Kind

/-! Model of the lexer, `crates/syntax/src/parse/lexer.rs` and `lexer/move_model.rs`.

A text is its list of characters; lengths and offsets are in bytes, as in the source, with the UTF-8 size
of each character. `unicode_segmentation::graphemes` is an external crate: the number of characters of the
first grapheme cluster is a parameter `g`. The three regular expressions are written as recursive
functions. -/

namespace Verif.Lexer
open Verif.Syntax (SyntaxKind)

/-- `str::len`: the number of UTF-8 bytes. -/
def blen : List Char → Nat
  | [] => 0
  | c :: cs => c.utf8Size + blen cs

/-- `&text[..n]` and `&text[n..]`; `none` is the panic for an offset that is not on a character
boundary or out of bounds. -/
def split : Nat → List Char → Option (List Char × List Char)
  | 0, cs => some ([], cs)
  | _ + 1, [] => none
  | n + 1, c :: cs =>
    if c.utf8Size ≤ n + 1 then (split (n + 1 - c.utf8Size) cs).map fun p => (c :: p.1, p.2) else none
termination_by _ cs => cs.length

/-- `str::starts_with`. -/
def startsWith (text pre : List Char) : Bool := pre.isPrefixOf text

/-- `Tok` (move_model.rs 17-102). -/
inductive Tok where
  | EOF | Whitespace | LineComment | BlockComment | NumValue | NumTypedValue | ByteStringValue
  | HexStringValue | Identifier | Exclaim | ExclaimEqual | Percent | Amp | Mut | LParen | RParen
  | LBracket | RBracket | Star | Plus | Comma | Minus | Period | PeriodPeriod | Slash | Colon
  | ColonColon | Semicolon | Less | Equal | PlusEqual | SubEqual | MulEqual | ModEqual | DivEqual
  | BitOrEqual | BitAndEqual | XorEqual | EqualEqual | EqualGreater | EqualEqualGreater | Greater
  | Caret | Abort | Acquires | As | Break | Continue | Copy | Else | False | If | Invariant | Let
  | Loop | Module | Move | Native | Public | Return | Spec | Struct | True | Use | While | LBrace
  | Pipe | PipePipe | RBrace | Fun | Script | Const | Friend | NumSign | AtSign | Inline | Label
  | BadCharacter | Underscore
deriving DecidableEq, Repr

/-- `text.chars().position(|c| !p(c)).unwrap_or(text.len())`: an index in characters, or the length in
bytes if all characters match. -/
def positionNot (p : Char → Bool) (text : List Char) : Nat :=
  match text.findIdx? (fun c => !p c) with
  | some i => i
  | none => blen text

/-- `text.find(|c| !p(c)).unwrap_or(text.len())`: an index in bytes. -/
def findNot (p : Char → Bool) (text : List Char) : Nat := blen (text.takeWhile p)

/-- `text.lines().next().unwrap()` for a non-empty text: up to the line feed, without a carriage return
before it. -/
def firstLine (text : List Char) : List Char :=
  let line := text.takeWhile (· ≠ '\n')
  if line.length < text.length ∧ line.getLast? = some '\r' then line.dropLast else line

/-- Character classes. -/
def isDigit (c : Char) : Bool := '0' ≤ c && c ≤ '9'
def isLetter (c : Char) : Bool := ('a' ≤ c && c ≤ 'z') || ('A' ≤ c && c ≤ 'Z')
def isNameChar (c : Char) : Bool := isLetter c || c == '_' || isDigit c
def isHexChar (c : Char) : Bool :=
  ('a' ≤ c && c ≤ 'f') || ('A' ≤ c && c ≤ 'F') || isDigit c || c == '_'
def isSpace (c : Char) : Bool := c == ' ' || c == '\t' || c == '\n'

/-- `is_num` (move_model.rs 428-435). -/
def isNum (curr : List Char) : Bool :=
  match curr with
  | [c] => isDigit c
  | _ => false

/-- `is_alphabetic` (437-444). -/
def isAlphabetic (curr : List Char) : Bool :=
  match curr with
  | [c] => isLetter c || c == '_'
  | _ => false

/-- `get_name_len` (450-454). -/
def nameLen (text : List Char) : Nat := positionNot isNameChar text

/-- `get_ws_len` (456-460). -/
def wsLen (text : List Char) : Nat := positionNot isSpace text

/-- `get_number_maybe_with_suffix` (480-502), on the text after the digits. -/
def numberSuffix (rest : List Char) (n : Nat) : Tok × Nat :=
  if startsWith rest ['u', '8'] || startsWith rest ['i', '8'] then (.NumTypedValue, n + 2)
  else if startsWith rest ['u', '1', '6'] || startsWith rest ['u', '3', '2'] ||
      startsWith rest ['u', '6', '4'] || startsWith rest ['i', '1', '6'] ||
      startsWith rest ['i', '3', '2'] || startsWith rest ['i', '6', '4'] then (.NumTypedValue, n + 3)
  else if startsWith rest ['u', '1', '2', '8'] || startsWith rest ['u', '2', '5', '6'] ||
      startsWith rest ['i', '1', '2', '8'] || startsWith rest ['i', '2', '5', '6'] then
    (.NumTypedValue, n + 4)
  else (.NumValue, n)

/-- `get_number_maybe_with_suffix` (480-502): `none` if the slice panics. -/
def numberMaybeWithSuffix (text : List Char) (n : Nat) : Option (Tok × Nat) :=
  (split n text).map fun p => numberSuffix p.2 n

/-- `get_decimal_number` (462-468). -/
def decimalNumber (text : List Char) : Option (Tok × Nat) :=
  numberMaybeWithSuffix text (positionNot (fun c => isDigit c || c == '_') text)

/-- `get_hex_number` (471-476). -/
def hexNumber (text : List Char) : Option (Tok × Nat) :=
  numberMaybeWithSuffix text (findNot isHexChar text)

/-- The match of `HEX_STRING_REGEX` (504-505), `^x"[0-9a-zA-Z]*(")?`. -/
def hexStringMatch (line : List Char) : Option (List Char) :=
  if startsWith line ['x', '"'] then
    let digits := (line.drop 2).takeWhile (fun c => isDigit c || isLetter c)
    let rest := (line.drop 2).drop digits.length
    some (['x', '"'] ++ digits ++ (if startsWith rest ['"'] then ['"'] else []))
  else none

/-- The match of `([^"\\]|\\.)*"` at the start of a text. -/
def quotedMatch : List Char → Option (List Char)
  | [] => none
  | '"' :: _ => some ['"']
  | ['\\'] => none
  | '\\' :: c :: cs => if c = '\n' then none else (quotedMatch cs).map ('\\' :: c :: ·)
  | c :: cs => (quotedMatch cs).map (c :: ·)

/-- The match of `BYTE_STRING_REGEX` (506-507), `^b"([^"\\]|\\.)*"`. -/
def byteStringMatch (line : List Char) : Option (List Char) :=
  if startsWith line ['b', '"'] then (quotedMatch (line.drop 2)).map (['b', '"'] ++ ·) else none

/-- The match of `QUOTE_IDENT_REGEX` (508-509), `^'[_a-zA-Z][_a-zA-Z0-9]*`. -/
def quoteIdentMatch (text : List Char) : Option (List Char) :=
  match text with
  | '\'' :: c :: cs => if isLetter c || c == '_' then some ('\'' :: c :: cs.takeWhile isNameChar) else none
  | _ => none

/-- The loop of `get_block_comment_len` (523-547) over the characters after the opening. `total` is
`text.len()`. Nesting and position are in characters. -/
def blockLoop (total : Nat) : List Char → Nat → Nat → Nat
  | [], pos, _ => 2 + pos
  | [_], _, _ => total
  | curr :: next :: cs, pos, nested =>
    if curr = '/' ∧ next = '*' then blockLoop total cs (pos + 2) (nested + 1)
    else if curr = '*' ∧ next = '/' then
      if nested = 0 then 2 + pos + 2 else blockLoop total cs (pos + 2) (nested - 1)
    else blockLoop total (next :: cs) (pos + 1) nested

/-- `get_block_comment_len` (511-551), for a text that starts with the opening delimiter. -/
def blockCommentLen (text : List Char) : Nat := blockLoop (blen text) (text.drop 2) 0 0

/-- `get_name_token` (553-585). -/
def nameToken (name : List Char) : Tok :=
  if name = ['a', 'b', 'o', 'r', 't'] then .Abort
  else if name = ['a', 'c', 'q', 'u', 'i', 'r', 'e', 's'] then .Acquires
  else if name = ['a', 's'] then .As
  else if name = ['b', 'r', 'e', 'a', 'k'] then .Break
  else if name = ['c', 'o', 'n', 's', 't'] then .Const
  else if name = ['c', 'o', 'n', 't', 'i', 'n', 'u', 'e'] then .Continue
  else if name = ['e', 'l', 's', 'e'] then .Else
  else if name = ['f', 'a', 'l', 's', 'e'] then .False
  else if name = ['f', 'u', 'n'] then .Fun
  else if name = ['f', 'r', 'i', 'e', 'n', 'd'] then .Friend
  else if name = ['i', 'f'] then .If
  else if name = ['i', 'n', 'v', 'a', 'r', 'i', 'a', 'n', 't'] then .Invariant
  else if name = ['l', 'e', 't'] then .Let
  else if name = ['l', 'o', 'o', 'p'] then .Loop
  else if name = ['i', 'n', 'l', 'i', 'n', 'e'] then .Inline
  else if name = ['m', 'o', 'd', 'u', 'l', 'e'] then .Module
  else if name = ['m', 'o', 'v', 'e'] then .Move
  else if name = ['n', 'a', 't', 'i', 'v', 'e'] then .Native
  else if name = ['p', 'u', 'b', 'l', 'i', 'c'] then .Public
  else if name = ['r', 'e', 't', 'u', 'r', 'n'] then .Return
  else if name = ['s', 'c', 'r', 'i', 'p', 't'] then .Script
  else if name = ['s', 'p', 'e', 'c'] then .Spec
  else if name = ['s', 't', 'r', 'u', 'c', 't'] then .Struct
  else if name = ['t', 'r', 'u', 'e'] then .True
  else if name = ['u', 's', 'e'] then .Use
  else if name = ['w', 'h', 'i', 'l', 'e'] then .While
  else if name = ['m', 'u', 't'] then .Mut
  else if name = ['_'] then .Underscore
  else .Identifier

/-- The cases of `find_token` for punctuation (297-422); `curr` is the first grapheme
cluster of the text. -/
def punctToken (text curr : List Char) : Tok × Nat :=
  if curr = ['&'] then
    if startsWith text ['&', '='] then (.BitAndEqual, 2) else (.Amp, 1)
  else if curr = ['|'] then
    if startsWith text ['|', '='] then (.BitOrEqual, 2) else (.Pipe, 1)
  else if curr = ['='] then
    if startsWith text ['=', '=', '>'] then (.EqualEqualGreater, 3) else if startsWith text ['=', '>'] then (.EqualGreater, 2) else if startsWith text ['=', '='] then (.EqualEqual, 2) else (.Equal, 1)
  else if curr = ['!'] then
    if startsWith text ['!', '='] then (.ExclaimEqual, 2) else (.Exclaim, 1)
  else if curr = ['<'] then
    (.Less, 1)
  else if curr = ['>'] then
    (.Greater, 1)
  else if curr = [':'] then
    if startsWith text [':', ':'] then (.ColonColon, 2) else (.Colon, 1)
  else if curr = ['%'] then
    if startsWith text ['%', '='] then (.ModEqual, 2) else (.Percent, 1)
  else if curr = ['('] then
    (.LParen, 1)
  else if curr = [')'] then
    (.RParen, 1)
  else if curr = ['['] then
    (.LBracket, 1)
  else if curr = [']'] then
    (.RBracket, 1)
  else if curr = ['*'] then
    if startsWith text ['*', '='] then (.MulEqual, 2) else (.Star, 1)
  else if curr = ['+'] then
    if startsWith text ['+', '='] then (.PlusEqual, 2) else (.Plus, 1)
  else if curr = [','] then
    (.Comma, 1)
  else if curr = ['-'] then
    if startsWith text ['-', '='] then (.SubEqual, 2) else (.Minus, 1)
  else if curr = ['.'] then
    if startsWith text ['.', '.'] then (.PeriodPeriod, 2) else (.Period, 1)
  else if curr = ['/'] then
    if startsWith text ['/', '='] then (.DivEqual, 2) else (.Slash, 1)
  else if curr = [';'] then
    (.Semicolon, 1)
  else if curr = ['^'] then
    if startsWith text ['^', '='] then (.XorEqual, 2) else (.Caret, 1)
  else if curr = ['{'] then
    (.LBrace, 1)
  else if curr = ['}'] then
    (.RBrace, 1)
  else if curr = ['#'] then
    (.NumSign, 1)
  else if curr = ['@'] then
    (.AtSign, 1)
  else (.BadCharacter, blen curr)

/-- `find_token` (237-426). `none` is a panic. -/
def findToken (g : List Char → Nat) (text : List Char) : Option (Tok × Nat) :=
  if text = [] then some (.EOF, 0)
  else
    let curr := text.take (g text)
    if curr = ['/'] ∧ startsWith text ['/', '/'] = true then some (.LineComment, blen (firstLine text))
    else if curr = ['/'] ∧ startsWith text ['/', '*'] = true then some (.BlockComment, blockCommentLen text)
    else if curr = [' '] ∨ curr = ['\t'] ∨ curr = ['\n'] then some (.Whitespace, wsLen text)
    else if isNum curr then
      if startsWith text ['0', 'x'] = true ∧ 2 < blen text then
        (hexNumber (text.drop 2)).map fun p => if p.2 = 0 then (.NumValue, 1) else (p.1, 2 + p.2)
      else decimalNumber text
    else if isAlphabetic curr then
      if startsWith text ['x', '"'] then
        (hexStringMatch (firstLine text)).map fun m => (.HexStringValue, blen m)
      else if startsWith text ['b', '"'] then
        match byteStringMatch (firstLine text) with
        | some m => some (.ByteStringValue, blen m)
        | none => some (.ByteStringValue, blen (firstLine text))
      else
        (split (nameLen text) text).map fun p => (nameToken p.1, nameLen text)
    else if curr = ['\''] then
      match quoteIdentMatch text with
      | some m => some (.Label, blen m)
      | none => some (.BadCharacter, 1)
    else if curr = ['"'] then some (.BadCharacter, 1)
    else some (punctToken text curr)

/-- `aptos_token_kind_to_syntax_kind` (lexer.rs 59 onwards). `none` is `unimplemented!`. -/
def syntaxKind : Tok → Option SyntaxKind
  | .Whitespace => some .WHITESPACE
  | .LineComment => some .COMMENT
  | .BlockComment => some .COMMENT
  | .NumValue => some .INT_NUMBER
  | .NumTypedValue => some .INT_NUMBER
  | .ByteStringValue => some .BYTE_STRING
  | .HexStringValue => some .HEX_STRING
  | .Identifier => some .IDENT
  | .Exclaim => some .BANG
  | .ExclaimEqual => some .NOT_EQ
  | .Percent => some .PERCENT
  | .Amp => some .AMP
  | .Mut => some .MUT_KW
  | .LParen => some .L_PAREN
  | .RParen => some .R_PAREN
  | .LBracket => some .L_BRACK
  | .RBracket => some .R_BRACK
  | .Star => some .STAR
  | .Plus => some .PLUS
  | .Comma => some .COMMA
  | .Minus => some .MINUS
  | .Period => some .DOT
  | .PeriodPeriod => some .DOT_DOT
  | .Slash => some .SLASH
  | .Colon => some .COLON
  | .ColonColon => some .COLON_COLON
  | .Semicolon => some .SEMICOLON
  | .Less => some .L_ANGLE
  | .Equal => some .EQ
  | .PlusEqual => some .PLUS_EQ
  | .SubEqual => some .MINUS_EQ
  | .MulEqual => some .STAR_EQ
  | .ModEqual => some .PERCENT_EQ
  | .DivEqual => some .SLASH_EQ
  | .BitOrEqual => some .PIPE_EQ
  | .BitAndEqual => some .AMP_EQ
  | .XorEqual => some .CARET_EQ
  | .EqualEqual => some .EQ_EQ
  | .EqualGreater => some .FAT_ARROW
  | .EqualEqualGreater => some .IMPLIES
  | .Greater => some .R_ANGLE
  | .Caret => some .CARET
  | .Abort => some .ABORT_KW
  | .Acquires => some .ACQUIRES_KW
  | .As => some .AS_KW
  | .Break => some .BREAK_KW
  | .Continue => some .CONTINUE_KW
  | .Else => some .ELSE_KW
  | .False => some .FALSE_KW
  | .If => some .IF_KW
  | .Invariant => some .INVARIANT_KW
  | .Let => some .LET_KW
  | .Loop => some .LOOP_KW
  | .Module => some .MODULE_KW
  | .Move => some .MOVE_KW
  | .Native => some .NATIVE_KW
  | .Public => some .PUBLIC_KW
  | .Return => some .RETURN_KW
  | .Spec => some .SPEC_KW
  | .Struct => some .STRUCT_KW
  | .True => some .TRUE_KW
  | .Use => some .USE_KW
  | .While => some .WHILE_KW
  | .LBrace => some .L_CURLY
  | .Pipe => some .PIPE
  | .RBrace => some .R_CURLY
  | .Fun => some .FUN_KW
  | .Script => some .SCRIPT_KW
  | .Const => some .CONST_KW
  | .Friend => some .FRIEND_KW
  | .NumSign => some .POUND
  | .AtSign => some .AT
  | .Inline => some .INLINE_KW
  | .Label => some .QUOTE_IDENT
  | .BadCharacter => some .BAD_CHARACTER
  | .Underscore => some .UNDERSCORE
  | .EOF | .Copy | .PipePipe => none

/-- `RawToken` (lexer.rs 15-20). -/
structure RawToken where
  kind : SyntaxKind
  len : Nat
deriving DecidableEq, Repr

/-- The loop of `tokenize` (lexer.rs 35-46) with `Lexer::advance` (move_model.rs 227-233) and `content`
(223-225). `text` is what remains. The outer `none` means out of fuel, the inner one is a panic. -/
def tokenizeLoop (g : List Char → Nat) : Nat → List Char → Option (Option (List RawToken))
  | 0, _ => none
  | fuel + 1, text =>
    match findToken g text with
    | none => some none
    | some (.EOF, _) => some (some [])
    | some (tok, len) =>
      match split len text with
      | none => some none
      | some (_, rest) =>
        match syntaxKind tok with
        | none => some none
        | some kind => (tokenizeLoop g fuel rest).map (·.map (⟨kind, len⟩ :: ·))

/-- `tokenize` (lexer.rs 25-49). -/
def tokenize (g : List Char → Nat) (fuel : Nat) (text : List Char) : Option (Option (List RawToken)) :=
  if text = [] then some (some []) else tokenizeLoop g fuel text

end Verif.Lexer
