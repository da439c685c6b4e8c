import Verif.Workspace.Model
import Verif.Documents.Spec

/-! Specification: what the editor believes about its documents. -/

namespace Verif.Workspace.Spec
open Verif Documents Workspace

variable {Path Bytes : Type} [DecidableEq Path] [DecidableEq Bytes]

/-- The documents open in the editor, with version and text. -/
abbrev Editor (Path : Type) := Path → Option (Int × List Char)

/-- How one event changes the editor's documents. Changes to documents which are not open are ignored;
what happens on disk or inside the server does not change them. -/
inductive EditorStep (enc : Encoding) : Editor Path → Event Path Bytes → Editor Path → Prop where
  | didOpen (E p v t) : EditorStep enc E (.didOpen p v t) (fun q => if q = p then some (v, t) else E q)
  | didChange (E p v v' t cs t') : E p = some (v, t) → Documents.Spec.Applies enc t cs t' →
      EditorStep enc E (.didChange p v' cs) (fun q => if q = p then some (v', t') else E q)
  | notOpen (E p v cs) : E p = none → EditorStep enc E (.didChange p v cs) E
  | didClose (E p) : EditorStep enc E (.didClose p) (fun q => if q = p then none else E q)
  | disk (E p c ch) : EditorStep enc E (.disk p c ch) E
  | process (E) : EditorStep enc E .process E

/-- A history, replayed in the editor. -/
inductive Replay (enc : Encoding) : Editor Path → List (Event Path Bytes) → Editor Path → Prop where
  | nil (E) : Replay enc E [] E
  | cons (E e E' es E'') : EditorStep enc E e E' → Replay enc E' es E'' → Replay enc E (e :: es) E''

/-- The last text given for a file in a batch. -/
def lastText (p : Path) (files : List (Path × Option (List Char))) : Option (List Char) :=
  (files.filter fun f => f.1 = p).getLast?.map fun f => f.2.getD []

end Verif.Workspace.Spec
