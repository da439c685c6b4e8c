import Verif.Ide.Organize
import Verif.Ide.QuickFix
import Verif.Nameres.Resolve

/-! The fix "Add import for …" of an unresolved name (ide-diagnostics/src/handlers/unresolved_reference/auto_import.rs) and the import
that it adds (ide-db/src/imports.rs). -/

namespace Verif.Nameres.AutoImport
open Verif.Parser (Green)
open Verif.Syntax Verif.Editor
open Verif.Ide (firstNode useStmts selfName)
open Verif.Ide.Organize (rootSpeck segmentTexts joinPath)

/-! ### What is offered -/

/-- hir_db.rs:163–177: the modules that can be reached and what they declare, as entries. -/
def candidates (w : Names) (file : Nat) : List Entry :=
  (w.files file).flatMap fun f => (allModules (Elem.root (w.tree f))).flatMap fun c =>
    (c.head?.bind (itemEntry f)).toList ++ (c.head?.map (importableEntries f)).getD []

/-- path_kind.rs:51–56. -/
def unqualifiedNs : PathKind → Option (List Ns)
  | .unqualified ns => some ns
  | _ => none

/-- auto_import.rs:21–36: the candidates for a path, which is given with its ancestors. With more than three there are none. -/
def offered (w : Names) (file : Nat) (site : List Elem) : Option (List Entry) :=
  (site.head?.bind refName).bind fun n => ((pathKind w.named site).bind unqualifiedNs).bind fun ns =>
    let es := ((candidates w file).filter fun e => ns.contains e.ns).filter fun e => decide (e.name = n)
    if 3 < es.length then none else some es

/-- address.rs:49–54. -/
def addressIdent : Address → Text
  | .named n => n
  | .value v => v

/-- The kinds of items that have a full name (fq_named_element.rs:95–150). -/
def fqKinds : List SyntaxKind := [.STRUCT, .ENUM, .CONST, .FUN, .SPEC_FUN, .SPEC_INLINE_FUN, .LEMMA, .SCHEMA]

/-- fq_named_element.rs:97–104. -/
def moduleName (m : List Elem) : Option (List Text) :=
  (moduleAddress m).bind fun a => (m.head?.bind nameText).map fun n => [addressIdent a, n]

/-- fq_named_element.rs:93–151 with 48–59: the parts of the full name. The items of specifications in other places, for which the
code looks up the module, are not among the candidates. -/
def fqName (p : Place) : Option (List Text) :=
  if p.elem.kind = .MODULE then moduleName (p.elem :: p.anc)
  else if fqKinds.contains p.elem.kind then
    match p.anc with
    | [] => none
    | m :: _ => if m.kind = .MODULE then (moduleName p.anc).bind fun q => (nameText p.elem).map fun n => q ++ [n] else none
  else none

/-! ### Elements that are built from text -/

/-- syntax_factory.rs:74–89 (`ast_from_text`): the first node of the kind in the tree of a text; `none` is the panic. -/
def make (P : Text → Option Green) (k : SyntaxKind) (text : Text) : Option Green :=
  (P text).bind fun t => (firstNode k t).map (Green.node k)

/-- syntax_factory.rs:66–68. -/
def itemText (t : Text) : Text := "module 0x1::m { ".toList ++ t ++ " }".toList

/-- syntax_factory.rs:70–72. -/
def exprText (t : Text) : Text := "module 0x1::m { fun main() { let _ = ".toList ++ t ++ " } }".toList

/-- syntax_factory/paths.rs:88–90 and 117–119. -/
def segmentText (t : Text) : Text := "module 0x1::m { fun main() { let _ = ".toList ++ t ++ "; }}".toList

/-- syntax_factory/paths.rs:139–141. -/
def addressText (t : Text) : Text := "module 0x1::m { const MY_CONST: ".toList ++ t ++ "::my_path = 1; }".toList

/-- syntax_factory/paths.rs:137–149. -/
def addressSegment (P : Text → Option Green) (t : Text) : Option Green :=
  (make P .PATH (addressText t)).bind fun p => (nodeChild (Elem.root p) .PATH).bind fun q =>
    (pathAddress q).bind fun _ => (nodeChild q .PATH_SEGMENT).map Elem.green

/-- syntax_factory/paths.rs:58–65, for one segment. -/
def segment (P : Text → Option Green) (t : Text) : Option Green :=
  if ['0', 'x'].isPrefixOf t then addressSegment P t else make P .PATH_SEGMENT (segmentText t)

/-- The segments of a path, all of them. -/
def segments (P : Text → Option Green) : List Text → Option (List Green)
  | [] => some []
  | t :: ts => (segment P t).bind fun s => (segments P ts).map (s :: ·)

/-- syntax_factory/paths.rs:83–86. -/
def pathOf (P : Text → Option Green) (segs : List Text) : Option Green := make P .PATH (exprText (joinPath segs))

/-- syntax_factory/paths.rs:55–69. The name is given in its parts: it is put together with `::` and split there. -/
def importPath (P : Text → Option Green) (name : List Text) : Option Green :=
  (segments P name).bind fun gs => pathOf P (gs.map Green.text)

/-- node_ext.rs:114–125 of syntax/src/ast (`text_of_first_token`); a name always has its token. -/
def firstText (r : Elem) : Text := match r.green.children with
  | .tok _ t :: _ => t
  | _ => []

/-- syntax_factory/paths.rs:11–19 and syntax_factory/uses.rs:18–37: the use speck of an import. -/
def newSpeck (P : Text → Option Green) (module : Green) (item : Option Green) : Option Green :=
  (match item with
    | none => some module
    | some r => (make P .PATH_SEGMENT (segmentText r.text)).bind fun s =>
      pathOf P (segmentTexts module.text.length (Elem.root module) ++ [s.text])).bind fun p =>
  make P .USE_SPECK (itemText ("use ".toList ++ p.text))

/-- `make.attr("test_only")`, as text, with the end of the line (syntax_factory/uses.rs:12–15). -/
def testAttr (P : Text → Option Green) : Option Text :=
  (make P .ATTR "#[test_only]module 0x1::m {}".toList).map fun a => a.text ++ ['\n']

mutual
/-- ast/edit.rs:78–93: the white space tokens with a line break get the indent. -/
def indentInner (indent : Text) : Green → Green
  | .tok k t => if k = .WHITESPACE ∧ t.contains '\n' then .tok k (t ++ indent) else .tok k t
  | .node k cs => .node k (indentInners indent cs)
def indentInners (indent : Text) : List Green → List Green
  | [] => []
  | g :: gs => indentInner indent g :: indentInners indent gs
end

/-- imports.rs:36–40 with syntax_factory/uses.rs:6–16. -/
def newStmt (P : Text → Option Green) (module : Green) (item : Option Green) (test : Bool) (indent : Text) : Option Green :=
  (newSpeck P module item).bind fun s => (if test then testAttr P else some []).bind fun attr =>
    (make P .USE_STMT (itemText (attr ++ "use ".toList ++ s.text ++ [';']))).map (indentInner indent)

/-! ### Where it goes -/

/-- ast/edit.rs:60–76: the level of the line that an element starts on, taken from the white space before it. -/
def indentLevel (g : Green) (e : Elem) : Nat :=
  match (((allTokens g).filterMap List.head?).filter fun t => decide (t.start ≤ e.start)).reverse.find? fun t =>
      decide (t.kind = .WHITESPACE) && t.green.text.contains '\n' with
  | none => 0
  | some t => (t.green.text.reverse.takeWhile (· != '\n')).length / 4

/-- `IndentLevel::from_node(..) + 1` as text (ast/edit.rs:25–44, 60–76). The level is a `u8`; that the addition overflows at 255 is
not in the model. -/
def indentText (g : Green) (e : Elem) : Text := List.replicate (4 * (indentLevel g e % 256 + 1)) ' '

/-- `rowan`'s `first_token`. -/
def firstToken : Green → Option (SyntaxKind × Text)
  | .tok k t => some (k, t)
  | .node _ [] => none
  | .node _ (c :: _) => firstToken c

/-- ast/node_ext/syntax_element.rs:37–49. -/
def nextToken : List Elem → Option (SyntaxKind × Text)
  | e :: p :: anc =>
    match e.path with
    | i :: _ => match p.green.children[i + 1]? with
      | some g => firstToken g
      | none => nextToken (p :: anc)
    | [] => none
  | _ => none

/-- syntax_editor/node_ext/module.rs:10–24: the last use statement, or the brace. -/
def anchor (owner : Site) : Option Site :=
  (match (useStmts owner.elem).getLast? with
    | some s => some s
    | none => tokenChild owner.elem .L_CURLY).map (· :: owner)

/-- syntax_editor/node_ext/module.rs:25–33. -/
def needsNewline (a : Site) : Bool := match nextToken a with
  | some (k, t) => !(decide (k = .WHITESPACE) && decide (1 < t.count '\n'))
  | none => true

/-- syntax_editor/node_ext/items_owner.rs:7–23. -/
def addStmt (g : Green) (owner : Site) (stmt : Green) : List Change := match anchor owner with
  | none => []
  | some a => [.insert (.after a) ([.tok .WHITESPACE ('\n' :: indentText g owner.elem), stmt] ++
      if needsNewline a then [.tok .WHITESPACE ['\n']] else [])]

/-! ### A statement for the same module -/

/-- ast/node_ext/use_speck.rs:79–97: what a use speck imports. -/
inductive SpeckKind where
  | module (path : Elem) (alias_ : Option Elem)
  | item (module : Elem) (name : Option Elem) (alias_ : Option Elem)
  | group (module : Elem) (names : List (Elem × Option Elem))

/-- use_group.rs:15–32 with use_speck.rs:41–60 and 99–106: the name of a use speck in a group, with its alias. -/
def groupName (s : Elem) : Option (Elem × Option Elem) :=
  (nodeChild s .PATH).bind fun p =>
    if (nodeChild s .USE_GROUP).isNone && (nodeChild p .PATH).isNone then (pathNameRef p).map fun r => (r, nodeChild s .USE_ALIAS)
    else none

/-- use_speck.rs:41–77, for the use speck of a statement. -/
def speckKind (r : Elem) : Option SpeckKind :=
  (nodeChild r .PATH).bind fun p =>
    match nodeChild r .USE_GROUP with
    | some g => some (.group p ((g.children.filter (isNode .USE_SPECK)).filterMap groupName))
    | none => (nodeChild p .PATH).map fun q =>
      if (nodeChild q .PATH).isNone then .module p (nodeChild r .USE_ALIAS)
      else .item q (pathNameRef p) (nodeChild r .USE_ALIAS)

/-- ast/node_ext/use_stmt.rs:14–22. -/
def modulePath (stmt : Elem) : Option Elem := ((nodeChild stmt .USE_SPECK).bind speckKind).map fun
  | .module p _ => p
  | .item q _ _ => q
  | .group p _ => p

/-- traits.rs:70–83 with attr_item.rs:27–34. -/
def nameOnlyAttr (name : String) (g : Green) : Bool :=
  (((nodesOf .ATTR g).flatMap (nodesOf .ATTR_ITEM)).filter fun i => (nodesOf .INITIALIZER i).isEmpty && (nodesOf .ATTR_ITEM_LIST i).isEmpty).any
    fun i => decide (Nameres.pathText i = some name.toList)

/-- imports.rs:22–26 with has_use_stmts.rs:33–38: the last statement for the module and the scope. Paths are compared as text. -/
def existing (owner : Elem) (module : Text) (test : Bool) : Option Elem :=
  ((useStmts owner).filter fun s => (modulePath s).any (fun p => decide (p.green.text = module)) &&
    !nameOnlyAttr "verify_only" s.green && (nameOnlyAttr "test_only" s.green == test)).getLast?

/-- The names of the group that a use speck becomes, with the texts of the names of their aliases (use_stmt.rs:63–87 and
syntax_factory/uses.rs:50–56). -/
def groupNames (new : Text) : SpeckKind → Elem × List (Text × Option Text)
  | .module p a => (p, [(selfName, aliasText a), (new, none)])
  | .item q n a => (q, (n.map fun r => (firstText r, aliasText a)).toList ++ [(new, none)])
  | .group p ns => (p, (ns.map fun n => (firstText n.1, aliasText n.2)) ++ [(new, none)])
where aliasText (a : Option Elem) : Option Text := (a.bind fun a => nodeChild a .NAME).map fun n => n.green.text

/-- One name of a group. -/
def nameWithAlias : Text × Option Text → Text
  | (n, none) => n
  | (n, some a) => n ++ " as ".toList ++ a

/-- `join(", ")`. -/
def joinComma : List Text → Text
  | [] => []
  | [t] => t
  | t :: ts => t ++ ", ".toList ++ joinComma ts

/-- syntax_factory/uses.rs:39–61. -/
def groupText (module : Text) (names : List (Text × Option Text)) : Text :=
  "use ".toList ++ module ++ "::{".toList ++ joinComma (names.map nameWithAlias) ++ ['}']

/-- What comes of a fix: a panic, nothing, or some changes. -/
inductive Fix where
  | panic
  | nothing
  | edit (cs : List Change)

/-- syntax_editor/node_ext/use_stmt.rs:55–89. -/
def addGroupItem (P : Text → Option Green) (stmt : Site) (new : Text) : Fix :=
  match rootSpeck stmt with
  | none => .edit []
  | some r => match speckKind r.elem with
    | none => .edit []
    | some k =>
      let g := groupNames new k
      match make P .USE_SPECK (itemText (groupText g.1.green.text g.2)) with
      | none => .panic
      | some s => .edit [.replace r (some s)]

/-! ### The fix -/

/-- imports.rs:20–44, from the path of the module and the name of the item. -/
def addFor (P : Text → Option Green) (g : Green) (owner : Site) (module : Green) (item : Option Green) (test : Bool) : Fix :=
  match existing owner.elem module.text test with
  | some s => addGroupItem P (s :: owner) (match item with | some r => firstText (Elem.root r) | none => selfName)
  | none => match newStmt P module item test (indentText g owner.elem) with
    | none => .panic
    | some stmt => .edit (addStmt g owner stmt)

/-- imports.rs:8–48 with syntax_factory/paths.rs:71–81. -/
def addImport (P : Text → Option Green) (g : Green) (owner : Site) (name : List Text) (test : Bool) : Fix :=
  match importPath P name with
  | none => .panic
  | some full => match nodeChild (Elem.root full) .PATH with
    | none => .nothing
    | some q => match nodeChild q .PATH with
      | none => addFor P g owner full none test
      | some _ => match nodeChild (Elem.root full) .PATH_SEGMENT with
        | none => .nothing
        | some s => addFor P g owner q.green ((nodeChild s .NAME_REF).map Elem.green) test

/-- `AnyHasItems` (generated/nodes.rs:9668). -/
def holdsItems (e : Elem) : Bool := isNode .MODULE e || isNode .MODULE_SPEC e || isNode .SCRIPT e

/-- `containing_items_owner` of a path, with its ancestors (syntax_element.rs:146–148). -/
def itemsOwner (site : List Elem) : Option Site := match site.tail.dropWhile fun e => !holdsItems e with
  | [] => none
  | o => some o

/-- auto_import.rs:41–51. -/
def forTests (g : Green) (path owner : Elem) : Bool :=
  decide (itemScope g (Elem.ptr owner) = .Main) && decide (itemScope g (Elem.ptr path) = .Test)

/-- auto_import.rs:16–87: the full names in the titles of the fixes, with what each of them does. -/
def fixes (P : Text → Option Green) (w : Names) (file : Nat) (site : List Elem) : Option (List (List Text × Fix)) :=
  (offered w file site).bind fun es => (itemsOwner site).bind fun owner => site.head?.map fun p =>
    (es.filterMap fun e => (placeAt w.toWorld e).bind fqName).map fun name =>
      (name, addImport P (w.tree file) owner name (forTests (w.tree file) p owner.elem))

end Verif.Nameres.AutoImport
