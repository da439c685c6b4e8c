import Verif.Lexer.Lemmas

/-! Model of `crates/syntax/src/ast/token_ext.rs`: comments and the quotes of string tokens. Texts are lists
of characters, offsets are in bytes. -/

namespace Verif.Comments
open Verif.Lexer (blen split startsWith)

/-- `CommentShape` (60-64). -/
inductive Shape where
  | Line | Block
deriving DecidableEq, Repr

/-- `CommentPlacement` (76-80). -/
inductive Placement where
  | Inner | Outer
deriving DecidableEq, Repr

/-- `CommentKind` (54-58). -/
structure Kind where
  shape : Shape
  doc : Option Placement
deriving DecidableEq, Repr

/-- `CommentKind::BY_PREFIX` (83-147). -/
def byPrefix : List (List Char × Kind) := [
  (['/', '*', '*', '/'], ⟨.Block, none⟩),
  (['/', '*', '*', '*'], ⟨.Block, none⟩),
  (['/', '/', '/', '/'], ⟨.Line, none⟩),
  (['/', '/', '/'], ⟨.Line, some .Outer⟩),
  (['/', '/', '!'], ⟨.Line, some .Inner⟩),
  (['/', '*', '*'], ⟨.Block, some .Outer⟩),
  (['/', '*', '!'], ⟨.Block, some .Inner⟩),
  (['/', '/'], ⟨.Line, none⟩),
  (['/', '*'], ⟨.Block, none⟩)]

/-- `CommentKind::from_text` (149-155). `none` is the panic of `unwrap`. -/
def fromText (text : List Char) : Option Kind :=
  (byPrefix.find? fun p => startsWith text p.1).map (·.2)

/-- `CommentKind::prefix` (157-164). -/
def kindPrefix (k : Kind) : Option (List Char) := (byPrefix.reverse.find? fun p => p.2 = k).map (·.1)

/-- `Comment::prefix` (27-33). -/
def commentPrefix (text : List Char) : Option (List Char) := do
  let k ← fromText text
  (byPrefix.find? fun p => k = p.2 && startsWith text p.1).map (·.1)

/-- `str::strip_suffix`. -/
def stripSuffix (text suffix : List Char) : Option (List Char) :=
  if suffix.isSuffixOf text then some (text.take (text.length - suffix.length)) else none

/-- `Comment::comment_line` (37-51). The outer `none` is a panic. -/
def commentLine (text : List Char) : Option (Option (List Char)) := do
  let k ← fromText text
  match k.doc with
  | none => some none
  | some _ =>
    let pre ← kindPrefix k
    let (_, rest) ← split (blen pre) text
    match k.shape with
    | .Block => some (some ((stripSuffix rest ['*', '/']).getD rest))
    | .Line => some (some rest)

/-- `str::find` of a string: the byte offset of the first occurrence. -/
def find (pat : List Char) : List Char → Option Nat
  | [] => if pat = [] then some 0 else none
  | c :: cs => if startsWith (c :: cs) pat then some 0 else (find pat cs).map (· + c.utf8Size)

/-- `str::rfind` of a character: the byte offset of the last occurrence. -/
def rfindChar (ch : Char) : List Char → Option Nat
  | [] => none
  | c :: cs =>
    match rfindChar ch cs with
    | some i => some (i + c.utf8Size)
    | none => if c = ch then some 0 else none

/-- `QuoteOffsets` (172-176), as byte offsets: opening quote `0..left`, contents `left..right`, closing quote
`right..stop`. -/
structure QuoteOffsets where
  left : Nat
  right : Nat
  stop : Nat
deriving DecidableEq, Repr

/-- `QuoteOffsets::new` (179-202). The outer `none` is a panic: a subtraction below zero, or a text range
whose end is before its start. -/
def QuoteOffsets.new (literal leftQuote : List Char) : Option (Option QuoteOffsets) :=
  match find leftQuote literal with
  | none => some none
  | some l =>
    match rfindChar '"' literal with
    | none => some none
    | some r =>
      if r < blen leftQuote - 1 then none
      else if l = r - (blen leftQuote - 1) then some none
      else
        let left := l + blen leftQuote
        if left ≤ r ∧ r ≤ blen literal then some (some ⟨left, r, blen literal⟩) else none

/-- `IsString::text_without_quotes` (223-229). The offset of the token is added and subtracted again, so it
is left out. -/
def textWithoutQuotes (text leftQuote : List Char) : Option (List Char) :=
  match QuoteOffsets.new text leftQuote with
  | none => none
  | some none => some text
  | some (some o) => do
    let (upTo, _) ← split o.right text
    let (_, content) ← split o.left upTo
    some content

end Verif.Comments
