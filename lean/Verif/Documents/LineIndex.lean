import Verif.Base.Lsp

/-! Positions in documents.

`LineIndex` comes from the external crate `line-index` 0.1.2 (not in /repo); it is modelled after the
published source of that crate. Its wrapper and the conversions `from_proto::offset`,
`from_proto::text_range` and `to_proto::lsp_position` are in /repo.

A Rust `str` is modelled as the list of its characters; offsets are byte offsets of the UTF-8 encoding. -/

namespace Verif.Documents
open Verif

/-- `PositionEncoding` with `WideEncoding` (line_index.rs 18-21 of aptos-language-server). -/
inductive Encoding where
  | utf8
  | utf16
  | utf32
deriving DecidableEq, Repr

/-- Number of bytes of a text. -/
def byteLen (cs : List Char) : Nat := (cs.map Char.utf8Size).sum

/-- Start offsets of the lines after the first (crate line-index, `analyze_source_file`). -/
def newlinesFrom (off : Nat) : List Char → List Nat
  | [] => []
  | c :: cs =>
    if c = '\n' then (off + 1) :: newlinesFrom (off + 1) cs else newlinesFrom (off + c.utf8Size) cs

/-- A non-ASCII character: line, start and end column in bytes (`WideChar`, keyed by line). -/
structure WideChar where
  line : Nat
  start : Nat
  stop : Nat
deriving DecidableEq, Repr

/-- The wide characters of all lines (crate line-index, `analyze_source_file`). -/
def wideFrom (line col : Nat) : List Char → List WideChar
  | [] => []
  | c :: cs =>
    if c = '\n' then wideFrom (line + 1) 0 cs
    else if c.utf8Size = 1 then wideFrom line (col + 1) cs
    else ⟨line, col, col + c.utf8Size⟩ :: wideFrom line (col + c.utf8Size) cs

/-- `line_index::LineIndex`. -/
structure LineIndex where
  newlines : List Nat
  wide : List WideChar
  len : Nat
deriving DecidableEq, Repr

/-- `LineIndex::new`. -/
def LineIndex.new (cs : List Char) : LineIndex :=
  ⟨newlinesFrom 0 cs, wideFrom 0 0 cs, byteLen cs⟩

/-- `LineIndex::start_offset`. -/
def LineIndex.startOffset (ix : LineIndex) (line : Nat) : Option Nat :=
  match line with
  | 0 => some 0
  | n + 1 => ix.newlines[n]?

/-- `line_wide_chars.get(&line)`; a missing entry behaves as an empty list. -/
def LineIndex.wideOf (ix : LineIndex) (line : Nat) : List WideChar := ix.wide.filter (·.line == line)

/-- `slice::partition_point(|it| it <= offset)` on the sorted newlines. -/
def partitionPoint (p : Nat → Bool) (l : List Nat) : Nat := (l.takeWhile p).length

/-- `LineIndex::try_line_col`: line and byte column. `line_col` panics on `none`. -/
def LineIndex.lineCol (ix : LineIndex) (offset : Nat) : Option (Nat × Nat) :=
  if ix.len < offset then none
  else
    let line := partitionPoint (· ≤ offset) ix.newlines
    (ix.startOffset line).bind fun start => if start ≤ offset then some (line, offset - start) else none

/-- `WideChar::wide_len`. -/
def wideLen (enc : Encoding) (c : WideChar) : Nat :=
  match enc with
  | .utf16 => if c.stop - c.start = 4 then 2 else 1
  | _ => 1

/-- Loop of `LineIndex::to_wide`; `none` is the failed `checked_sub`. -/
def toWideLoop (enc : Encoding) (orig : Nat) (col : Nat) : List WideChar → Option Nat
  | [] => some col
  | c :: cs =>
    if c.stop ≤ orig then
      let d := (c.stop - c.start) - wideLen enc c
      if d ≤ col then toWideLoop enc orig (col - d) cs else none
    else some col

/-- Loop of `LineIndex::to_utf8` (the `checked_add` cannot fail on unbounded numbers; columns near 2^32
are out of the model). -/
def toUtf8Loop (enc : Encoding) (col : Nat) : List WideChar → Nat
  | [] => col
  | c :: cs =>
    if c.start < col then toUtf8Loop enc (col + ((c.stop - c.start) - wideLen enc c)) cs
    else col

/-- `LineIndex::line`: start and end (including the line feed) of a line. -/
def LineIndex.line (ix : LineIndex) (line : Nat) : Option (Nat × Nat) :=
  (ix.startOffset line).map fun start => (start, (ix.newlines[line]?).getD ix.len)

/-- `to_proto::lsp_position` (to_proto.rs 39-48); `none` is a panic. -/
def lspPosition (enc : Encoding) (ix : LineIndex) (offset : Nat) : Option Pos :=
  (ix.lineCol offset).bind fun lc =>
    match enc with
    | .utf8 => some ⟨lc.1, lc.2⟩
    | _ => (toWideLoop enc lc.2 lc.2 (ix.wideOf lc.1)).map fun col => ⟨lc.1, col⟩

/-- The column in bytes (from_proto.rs 30-46). -/
def utf8Col (enc : Encoding) (wide : List WideChar) (col : Nat) : Nat :=
  match enc with
  | .utf8 => col
  | .utf16 => toUtf8Loop .utf16 col wide
  | .utf32 => toUtf8Loop .utf32 col wide

/-- `from_proto::offset` (from_proto.rs 29-60); `none` is an `Err`. -/
def offset (enc : Encoding) (ix : LineIndex) (p : Pos) : Option Nat :=
  (ix.line p.line).map fun r => r.1 + min (utf8Col enc (ix.wideOf p.line) p.character) (r.2 - r.1)

/-- `from_proto::text_range` (from_proto.rs 62-69). -/
def textRange (enc : Encoding) (ix : LineIndex) (r : Range) : Option (Nat × Nat) :=
  (offset enc ix r.start).bind fun s => (offset enc ix r.stop).bind fun e =>
    if e < s then none else some (s, e)

/-- The text up to a byte offset and the rest; `none` if the offset is not on a character boundary or
beyond the end. -/
def splitAtByte : Nat → List Char → Option (List Char × List Char)
  | 0, cs => some ([], cs)
  | _ + 1, [] => none
  | n + 1, c :: cs =>
    if c.utf8Size ≤ n + 1 then (splitAtByte (n + 1 - c.utf8Size) cs).map fun r => (c :: r.1, r.2)
    else none

/-- `String::replace_range`; `none` is a panic (offset out of bounds or inside a character; the range is
ordered by construction). -/
def replaceRange (cs : List Char) (s e : Nat) (new : List Char) : Option (List Char) :=
  (splitAtByte s cs).bind fun a => (splitAtByte e cs).bind fun b => some (a.1 ++ new ++ b.2)

end Verif.Documents
