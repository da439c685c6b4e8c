import Verif.Documents.Model

/-! Specification of positions and document changes, following the protocol text and not the code. -/

namespace Verif.Documents.Spec
open Verif Verif.Documents

/-- Length of a character in the units of the encoding. -/
def units (enc : Encoding) (c : Char) : Nat :=
  match enc with
  | .utf8 => c.utf8Size
  | .utf16 => if c.toNat < 0x10000 then 1 else 2
  | .utf32 => 1

/-- Position after reading a text, starting from a given line and column. -/
def posFrom (enc : Encoding) (line col : Nat) : List Char → Pos
  | [] => ⟨line, col⟩
  | c :: cs => if c = '\n' then posFrom enc (line + 1) 0 cs else posFrom enc line (col + units enc c) cs

/-- The position between `before` and the rest of a document: the number of line feeds before it and the
length, in the units of the encoding, of the text since the last one. -/
def posOf (enc : Encoding) (before : List Char) : Pos := posFrom enc 0 0 before

/-- `Applies enc t cs t'`: a client whose document is `t` makes the changes `cs`, each relative to the
document after the previous ones, and ends with `t'`. -/
inductive Applies (enc : Encoding) : List Char → List Change → List Char → Prop where
  | nil (t) : Applies enc t [] t
  | whole (t new cs t') : Applies enc new cs t' → Applies enc t (.whole new :: cs) t'
  | edit (a b c new cs t') : Applies enc (a ++ new ++ c) cs t' →
      Applies enc (a ++ b ++ c) (.edit ⟨posOf enc a, posOf enc (a ++ b)⟩ new :: cs) t'

/-- Applying one range edit with an index computed from the current text. -/
def applyFresh (enc : Encoding) (t : List Char) (ch : Range × List Char) : Option (List Char) :=
  match textRange enc (LineIndex.new t) ch.1 with
  | some (s, e) => replaceRange t s e ch.2
  | none => some t

end Verif.Documents.Spec
