import Verif.Ide.Imports
import Verif.Documents.LineIndex

/-! The outline of a document: `textDocument/documentSymbol`.

ide/src/file_structure.rs, `ast_kind_to_symbol_kind` (ide-db/src/lib.rs:57–86), `to_proto::symbol_kind` (lsp/to_proto.rs:56–77),
`handle_document_symbol` (handlers/request.rs:89–167 of aptos-language-server).

`None` of `Option` at the outside of a result is a panic. -/

namespace Verif.Outline
open Verif.Parser (Green)
open Verif Verif.Syntax Verif.Ide
open Verif.Documents (Encoding LineIndex lspPosition)

/-- The values of `SymbolKind` (ide-db/src/lib.rs:31–54) that the outline uses. -/
inductive SymKind where
  | Module | Function | Const | Struct | Enum | TypeParam | EnumVariant | Field | GlobalVariableDecl | Lemma | Local
  deriving DecidableEq, Repr

/-- The kinds `NamedElement` casts from (syntax/src/ast/generated/nodes.rs:8474–8494). -/
def namedElement : SyntaxKind → Bool
  | .CONST | .ENUM | .FUN | .GLOBAL_VARIABLE_DECL | .IDENT_PAT | .LEMMA | .MODULE | .NAMED_FIELD | .SCHEMA | .SPEC_FUN
  | .SPEC_INLINE_FUN | .STRUCT | .TYPE_PARAM | .USE_ALIAS | .VARIANT => true
  | _ => false

/-- `ast_kind_to_symbol_kind` (ide-db/src/lib.rs:57–86), given the kind of the node and that of its parent. -/
def symbolKind (k : SyntaxKind) (parent : Option SyntaxKind) : SymKind :=
  match k with
  | .MODULE => .Module
  | .FUN => .Function
  | .SPEC_FUN => .Function
  | .SPEC_INLINE_FUN => .Function
  | .CONST => .Const
  | .STRUCT => .Struct
  | .ENUM => .Enum
  | .TYPE_PARAM => .TypeParam
  | .VARIANT => .EnumVariant
  | .NAMED_FIELD => .Field
  | .SCHEMA => .Struct
  | .GLOBAL_VARIABLE_DECL => .GlobalVariableDecl
  | .LEMMA => .Lemma
  | .IDENT_PAT => if parent = some .SCHEMA_FIELD then .Field else .Local
  | _ => .Local

/-- `StructureNode` without the parent (file_structure.rs:11–18). -/
structure Sym where
  label : List Char
  nav : Nat × Nat
  node : Nat × Nat
  kind : SymKind

/-- `Name::text` (syntax/src/ast/node_ext.rs:108–127): the text of the first child, which must be a token. -/
def nameText (n : Elem) : Option (List Char) :=
  match n.green.children with
  | .tok _ t :: _ => some t
  | _ => none

/-- `structure_node` (file_structure.rs:44–56), for a node with its ancestors. -/
def structureNode : List Elem → Option (Option Sym)
  | [] => some none
  | e :: anc =>
    if namedElement e.kind then
      match nodeChild e .NAME with
      | none => some none
      | some n => (nameText n).map fun t =>
          some ⟨t, (n.start, n.stop), (e.start, e.stop), symbolKind e.kind (anc.head?.map Elem.kind)⟩
    else some none

/-- `WalkEvent` of a node with its ancestors. -/
inductive Event where
  | enter (c : List Elem)
  | leave (c : List Elem)

mutual
/-- `preorder_with_tokens()` without the events of tokens, which file_structure.rs:39 ignores. -/
def events (anc : List Elem) (path : List Nat) (start : Nat) : Green → List Event
  | .tok _ _ => []
  | .node k cs => .enter (⟨path, start, .node k cs⟩ :: anc) ::
      (eventss (⟨path, start, .node k cs⟩ :: anc) path 0 start cs ++ [.leave (⟨path, start, .node k cs⟩ :: anc)])
/-- The events of consecutive children. -/
def eventss (anc : List Elem) (path : List Nat) (i start : Nat) : List Green → List Event
  | [] => []
  | g :: gs => events anc (i :: path) start g ++ eventss anc path (i + 1) (start + g.len) gs
end

/-- `res` and `stack` (file_structure.rs:21–22); the stack has its top first. -/
structure State where
  res : List (Option Nat × Sym) := []
  stack : List Nat := []

/-- file_structure.rs:25–40. -/
def State.step (s : State) : Event → Option State
  | .enter c =>
    match structureNode c with
    | none => none
    | some none => some s
    | some (some sym) => some ⟨s.res ++ [(s.stack.head?, sym)], s.res.length :: s.stack⟩
  | .leave c =>
    match structureNode c with
    | none => none
    | some none => some s
    | some (some _) =>
      match s.stack with
      | [] => none
      | _ :: rest => some { s with stack := rest }

/-- The loop of file_structure.rs:24–41. -/
def steps (s : State) : List Event → Option State
  | [] => some s
  | e :: es => (s.step e).bind fun s' => steps s' es

/-- `file_structure` (file_structure.rs:20–43). -/
def fileStructure (g : Green) : Option (List (Option Nat × Sym)) := (steps {} (events [] [] 0 g)).map State.res

/-- The values of `lsp_types::SymbolKind` that the outline uses. -/
inductive LspKind where
  | Module | Function | Constant | Struct | Enum | TypeParameter | EnumMember | Field | Variable
  deriving DecidableEq, Repr

/-- `to_proto::symbol_kind` (to_proto.rs:56–77). -/
def lspKind : SymKind → LspKind
  | .Function => .Function
  | .Struct => .Struct
  | .Enum => .Enum
  | .EnumVariant => .EnumMember
  | .Module => .Module
  | .TypeParam => .TypeParameter
  | .Field => .Field
  | .Const => .Constant
  | .Local => .Variable
  | .GlobalVariableDecl => .Variable
  | .Lemma => .Function

/-- `lsp_types::DocumentSymbol` without the children; the fields that are always `None` are left out. -/
structure Item where
  name : List Char
  kind : LspKind
  range : Range
  selection : Range
  deriving DecidableEq, Repr

/-- A tree of values. `Tree Item` is `lsp_types::DocumentSymbol`; no children stands for `children: None`, which is the only way
to have none (request.rs:125 creates the list when the first child is pushed). -/
inductive Tree (β : Type) where
  | mk (value : β) (children : List (Tree β))

def Tree.value {β : Type} : Tree β → β
  | .mk v _ => v

def Tree.children {β : Type} : Tree β → List (Tree β)
  | .mk _ cs => cs

/-- `to_proto::lsp_range` (to_proto.rs:50–54). -/
def lspRange (enc : Encoding) (ix : LineIndex) (r : Nat × Nat) : Option Range :=
  (lspPosition enc ix r.1).bind fun a => (lspPosition enc ix r.2).map fun b => ⟨a, b⟩

/-- request.rs:101–112. -/
def toItem (enc : Encoding) (ix : LineIndex) (s : Sym) : Option Item :=
  (lspRange enc ix s.node).bind fun r => (lspRange enc ix s.nav).map fun n => ⟨s.label, lspKind s.kind, r, n⟩

/-- request.rs:100–113. -/
def toItems (enc : Encoding) (ix : LineIndex) : List (Option Nat × Sym) → Option (List (Option Nat × Tree Item))
  | [] => some []
  | s :: ss => (toItem enc ix s.2).bind fun it => (toItems enc ix ss).map fun its => (s.1, .mk it []) :: its

/-- One round of the loop of request.rs:119–128, for the last entry; the rest of the list and the entry are given. -/
def place {β : Type} (rest : List (Option Nat × Tree β)) (acc : List (Tree β)) (x : Option Nat × Tree β) :
    Option (List (Option Nat × Tree β) × List (Tree β)) :=
  let node : Tree β := .mk x.2.value x.2.children.reverse
  match x.1 with
  | none => some (rest, acc ++ [node])
  | some i =>
    match rest[i]? with
    | none => none
    | some p => some (rest.set i (p.1, .mk p.2.value (p.2.children ++ [node])), acc)

/-- The loop of request.rs:119–128; the number is the length of the list. -/
def build {β : Type} : Nat → List (Option Nat × Tree β) → List (Tree β) → Option (List (Tree β))
  | 0, _, acc => some acc.reverse
  | n + 1, ps, acc =>
    match ps.getLast? with
    | none => some acc.reverse
    | some x => (place ps.dropLast acc x).bind fun r => build n r.1 r.2

/-- `handle_document_symbol` (request.rs:89–134) for a client that shows a tree. -/
def documentSymbols (enc : Encoding) (text : List Char) (g : Green) : Option (List (Tree Item)) :=
  (fileStructure g).bind fun syms => (toItems enc (LineIndex.new text) syms).bind fun ps => build ps.length ps []

/-- `lsp_types::SymbolInformation`, without the file, which is the one of the request. -/
structure Info where
  name : List Char
  kind : LspKind
  range : Range
  container : Option (List Char)
  deriving DecidableEq, Repr

mutual
/-- `flatten_document_symbol` (request.rs:145–166). -/
def flatten (container : Option (List Char)) : Tree Item → List Info
  | .mk it cs => ⟨it.name, it.kind, it.range, container⟩ :: flattens (some it.name) cs
/-- request.rs:163–165 and 138–140. -/
def flattens (container : Option (List Char)) : List (Tree Item) → List Info
  | [] => []
  | t :: ts => flatten container t ++ flattens container ts
end

/-- `handle_document_symbol` for a client that shows a list (request.rs:136–142). -/
def symbolInformation (enc : Encoding) (text : List Char) (g : Green) : Option (List Info) :=
  (documentSymbols enc text g).map (flattens none)

end Verif.Outline
