import Verif.Editor.Props
import Verif.Ide.Extend
import Verif.Ide.Imports

/-! Removing imports (syntax/src/syntax_editor/node_ext/use_speck.rs and use_stmt.rs) and "Organize imports"
(ide-diagnostics/src/handlers/unused_import/organize_imports.rs). -/

namespace Verif.Ide.Organize
open Verif.Parser (Green)
open Verif.Syntax Verif.Nameres Verif.Editor
open Verif.Ide.Extend (after before)

/-! ### Taking elements out of a list -/

/-- A sibling, with its ancestors. -/
def sib (s : Site) (c : Elem) : Site := c :: s.tail

/-- `SyntaxKind::is_trivia`. -/
def trivia (e : Elem) : Bool := e.kind.isTrivia

/-- ast/node_ext/syntax_element.rs:67–72. -/
def followingComma (s : Site) : Option Elem := ((after s).find? fun c => !trivia c).filter (isToken .COMMA)

/-- ast/node_ext/syntax_element.rs:81–86. -/
def precedingComma (s : Site) : Option Elem := ((before s).find? fun c => !trivia c).filter (isToken .COMMA)

/-- ast/node_ext/syntax_element.rs:74–79. -/
def followingWs (s : Site) : Option Elem := (after s).head?.filter (isToken .WHITESPACE)

/-- `SyntaxEditor::delete` (syntax_editor.rs:67–75). -/
def delete (s : Site) : Change := .replace s none

/-- The comma that goes with an element: the one behind it, or else the one in front of it (syntax_editor.rs:90–96). -/
def itsComma (s : Site) : Option Elem := match followingComma s with
  | some c => some c
  | none => precedingComma s

/-- `delete_comma_sep_list_element` (syntax_editor.rs:77–98). -/
def deleteListElement (s : Site) : List Change :=
  ((after s).takeWhile trivia ++ (before s).takeWhile trivia ++ (itsComma s).toList).map (fun c => delete (sib s c)) ++ [delete s]

/-- The white space after the comma that follows the first use speck of a group (syntax_editor/node_ext/use_speck.rs:11–22). -/
def wsAfterFirst (s : Site) : Option Elem := match s with
  | e :: g :: _ =>
    if isNode .USE_GROUP g && ((nodeChild g .USE_SPECK).map Elem.path == some e.path) then
      (followingComma s).bind fun c => followingWs (sib s c)
    else none
  | _ => none

/-- `UseSpeck::delete` (syntax_editor/node_ext/use_speck.rs:10–24). -/
def deleteSpeck (s : Site) : List Change := (wsAfterFirst s).toList.map (fun c => delete (sib s c)) ++ deleteListElement s

/-! ### Statements -/

/-- `UseStmt::delete` (syntax_editor/node_ext/use_stmt.rs:15–20). -/
def deleteStmt (s : Site) : List Change := (followingWs s).toList.map (fun c => delete (sib s c)) ++ [delete s]

/-- `use_speck()` of a statement. -/
def rootSpeck (stmt : Site) : Option Site := (nodeChild stmt.elem .USE_SPECK).map (· :: stmt)

/-- `use_group()` of the use speck of a statement. -/
def groupOf (stmt : Site) : Option Site := (rootSpeck stmt).bind fun r => (nodeChild r.elem .USE_GROUP).map (· :: r)

/-- `group_use_specks` (ast/node_ext/use_stmt.rs:32–37). -/
def groupSpecks (stmt : Site) : List Site := match groupOf stmt with
  | none => []
  | some g => (g.elem.children.filter (isNode .USE_SPECK)).map (· :: g)

/-- What is built from text by ast/syntax_factory/uses.rs: a use speck; a statement with an attribute (syntax_editor/node_ext/use_stmt.rs:22–34); the
line with the import of one item for tests only (organize_imports.rs:117–136). Nothing is assumed about the trees. -/
structure Factory where
  speck : List Char → Green
  attributed : Green → Green
  testLine : Green → Green → List Green

/-- `Path::segments` (ast/node_ext/path.rs:71–84), as text; the number bounds the length of the path. -/
def segmentTexts : Nat → Elem → List (List Char)
  | 0, _ => []
  | n + 1, p => ((nodeChild p .PATH).map (segmentTexts n)).getD [] ++ ((nodeChild p .PATH_SEGMENT).map fun s => s.green.text).toList

/-- `join("::")`. -/
def joinPath : List (List Char) → List Char
  | [] => []
  | [t] => t
  | t :: ts => t ++ "::".toList ++ joinPath ts

/-- `make.use_speck(path, alias)` (syntax_factory/uses.rs:30–37) without `use`, as text. -/
def speckText (path : List Char) (speck : Elem) : List Char := match nodeChild speck .USE_ALIAS with
  | some a => path ++ ' ' :: a.green.text
  | none => path

/-- `path_name() == "Self"` (ast/node_ext/use_speck.rs:37–39). -/
def isSelf (speck : Elem) : Bool := ((nodeChild speck .PATH).bind refName) == some selfName

/-- `replace_root_use_speck_with` (syntax_editor/node_ext/use_stmt.rs:113–139). -/
def replaceRoot (f : Factory) (stmt speck : Site) : List Change :=
  match rootSpeck stmt with
  | none => []
  | some r =>
    match nodeChild r.elem .PATH with
    | none => []
    | some p =>
      if isSelf speck.elem then [.replace r (some (f.speck (speckText p.green.text speck.elem)))]
      else match (nodeChild speck.elem .PATH).bind (nodeChild · .PATH_SEGMENT) with
        | none => []
        | some seg =>
          [.replace r (some (f.speck (speckText (joinPath (segmentTexts p.green.text.length p ++ [seg.green.text])) speck.elem)))]

/-- `delete_group_use_specks` (syntax_editor/node_ext/use_stmt.rs:91–111). -/
def deleteSpecks (f : Factory) (stmt : Site) (unused : List Site) : List Change :=
  match (groupSpecks stmt).filter fun s => !(unused.map Site.path).contains s.path with
  | [one] => replaceRoot f stmt one
  | _ => unused.flatMap deleteSpeck

/-- `is_root_self` of the use speck of the statement (ast/node_ext/use_speck.rs:31–35). -/
def isRootSelf (r : Elem) : Bool := ((nodeChild r .PATH).bind fun p => nodeChild p .PATH).isSome && isSelf r

/-- `simplify_root_self` (syntax_editor/node_ext/use_stmt.rs:36–53). -/
def simplifyRoot (f : Factory) (r : Site) : List Change :=
  match (nodeChild r.elem .PATH).bind fun p => nodeChild p .PATH with
  | none => []
  | some q => [.replace r (some (f.speck (speckText q.green.text r.elem)))]

/-- The use specks of the items that are marked in a group. Items that are not in a group are never marked in this way, since a
statement without a group has at most one. -/
def markedSpecks (stmt : Site) (us : List UseItem) : List Site :=
  us.filterMap fun u => (groupSpecks stmt).find? fun s => s.path == u.path

/-! ### Organize imports -/

/-- `remove_unused_imports_in_use_stmt` (organize_imports.rs:73–96). -/
def removeIn (f : Factory) (stmt : Site) : Mark → List Change
  | .stmt _ _ => deleteStmt stmt
  | .specks us => match rootSpeck stmt with
    | some r => if isRootSelf r.elem then simplifyRoot f r else deleteSpecks f stmt (markedSpecks stmt us)
    | none => deleteSpecks f stmt (markedSpecks stmt us)

/-- `add_attribute` (syntax_editor/node_ext/use_stmt.rs:22–34). -/
def addAttribute (f : Factory) (stmt : Site) : List Change := match rootSpeck stmt with
  | none => []
  | some _ => [.replace stmt (some (f.attributed stmt.elem.green))]

/-- `replace_main_scope_with_test_only` (organize_imports.rs:98–141); `empty` is for a group without items. -/
def restrictIn (f : Factory) (stmt : Site) (empty : Bool) : Mark → List Change
  | .stmt _ _ => if empty then [] else addAttribute f stmt
  | .specks us => match (rootSpeck stmt).bind fun r => nodeChild r.elem .PATH with
    | none => []
    | some _ => (markedSpecks stmt us).flatMap fun s =>
      if ((nodeChild s.elem .PATH).bind pathNameRef).isSome then
        deleteSpecks f stmt [s] ++ [.insert (.after stmt) (f.testLine stmt.elem.green s.elem.green)]
      else []

/-- The loop of organize_imports.rs:50–57 or 61–68: the changes, and whether there was a kind for every statement. -/
def eachStmt (w : Project) (file : Nat) (owner : Site) (items : List UseItem) (change : Site → Mark → List Change) :
    List Elem → List Change × Bool
  | [] => ([], true)
  | s :: rest =>
    match unusedKind w ⟨file, owner.elem, s⟩ (items.filter (Stmt.has ⟨file, owner.elem, s⟩)) with
    | none => ([], false)
    | some m => let r := eachStmt w file owner items change rest; (change (s :: owner) m ++ r.1, r.2)

/-- `organize_imports_in_stmts_owner` (organize_imports.rs:43–71). -/
def organizeOwner (w : Project) (f : Factory) (file : Nat) (owner : Site) : List Change :=
  match unusedUseItems w file owner with
  | none => []
  | some unused =>
    let r := eachStmt w file owner unused (removeIn f) (useStmts owner.elem)
    if !r.2 then r.1
    else match testOnlyUseItems w file owner with
      | none => r.1
      | some broad => r.1 ++ (eachStmt w file owner broad
          (fun s => restrictIn f s (Stmt.items w ⟨file, owner.elem, s.elem⟩ == some [])) (useStmts owner.elem)).1

/-- `descendants_of_type::<AnyUseStmtsOwner>()` of a file. -/
def owners (g : Green) : List Site := (nodeChains [] [] 0 g).filter fun s => s.head?.any isOwner

/-- `organize_imports_in_file` (organize_imports.rs:23–41): the changes that are recorded. -/
def organize (w : Project) (f : Factory) (file : Nat) : List Change := (owners (w.tree file)).flatMap (organizeOwner w f file)

end Verif.Ide.Organize
