import Verif.Nameres.Visible
import Verif.Nameres.Address

/-! The kind of a path (lang/src/nameres/path_kind.rs) and the parts of a path (syntax/src/ast/node_ext/path.rs). A path is given
with its ancestors from the inside out. -/

namespace Verif.Nameres
open Verif.Parser (Green)
open Verif.Syntax

/-- name_ref.rs:28–38 (`as_string`). -/
def nameRefText (r : Elem) : List Char :=
  match tokenChild r .IDENT with
  | some t => t.green.text
  | none => match tokenChild r .INT_NUMBER with
    | some t => t.green.text
    | none => []

/-- generated/nodes.rs, `Path::segment` and `PathSegment::name_ref`. -/
def pathNameRef (p : Elem) : Option Elem := (nodeChild p .PATH_SEGMENT).bind fun s => nodeChild s .NAME_REF

/-- path.rs:19–21. -/
def refName (p : Elem) : Option (List Char) := (pathNameRef p).map nameRefText

/-- path.rs:11–13. -/
def pathAddress (p : Elem) : Option Elem := (nodeChild p .PATH_SEGMENT).bind fun s => nodeChild s .PATH_ADDRESS

/-- node_ext/value_address.rs (`address_text`): the text of the number; `PathAddress::value_address` panics without one, which
the parser never builds. -/
def addressText (a : Elem) : List Char :=
  match (nodeChild a .VALUE_ADDRESS).bind fun v => tokenChild v .INT_NUMBER with
  | some t => t.green.text
  | none => []

/-- `Path::qualifier` of a path with its ancestors. -/
def qualifierOf : List Elem → Option (List Elem)
  | [] => none
  | p :: anc => (nodeChild p .PATH).map fun q => q :: p :: anc

/-- path.rs:58–65. -/
def rootPath : List Elem → List Elem
  | [] => []
  | [p] => [p]
  | p :: q :: anc => if isNode .PATH q then rootPath (q :: anc) else p :: q :: anc

/-- path.rs:39–41. -/
def rootParentKind (site : List Elem) : Option SyntaxKind := ((rootPath site).tail.head?).map Elem.kind

/-- `rowan`'s `first_token` of a node or token. -/
def firstTokenKind : Green → Option SyntaxKind
  | .tok k _ => some k
  | .node _ [] => none
  | .node _ (c :: _) => firstTokenKind c

/-- `rowan`'s `next_token`, its kind: that of the next sibling, or of the next sibling of the nearest ancestor that has one. -/
def nextTokenKind : List Elem → Option SyntaxKind
  | e :: p :: anc =>
    match e.path with
    | i :: _ => match p.green.children[i + 1]? with
      | some g => firstTokenKind g
      | none => nextTokenKind (p :: anc)
    | [] => none
  | _ => none

/-- path_kind.rs:120–123: `::` comes directly after the identifier of the path. -/
def trailingColons (site : List Elem) : Bool :=
  match site with
  | [] => false
  | p :: anc =>
    match nodeChild p .PATH_SEGMENT with
    | none => false
    | some s => match nodeChild s .NAME_REF with
      | none => false
      | some r => match tokenChild r .IDENT with
        | none => false
        | some t => decide (nextTokenKind (t :: r :: s :: p :: anc) = some .COLON_COLON)

/-- namespaces.rs:34–66. -/
def nsNames : List Ns := [.NAME]
def nsSchemas : List Ns := [.SCHEMA]
def nsModules : List Ns := [.MODULE]
def nsEnumsModules : List Ns := [.ENUM, .MODULE]
def nsValue : List Ns := [.NAME, .FUNCTION, .ENUM_VARIANT]
def nsContainer : List Ns := [.TYPE, .TUPLE_STRUCT, .ENUM, .ENUM_VARIANT]
def nsCallable : List Ns := [.NAME, .FUNCTION, .TUPLE_STRUCT, .ENUM_VARIANT]
def nsIndexable : List Ns := [.TYPE, .ENUM, .TUPLE_STRUCT, .NAME]
def nsImportable : List Ns := [.NAME, .FUNCTION, .TYPE, .TUPLE_STRUCT, .SCHEMA, .ENUM]
def nsItemType : List Ns := [.TYPE, .TUPLE_STRUCT, .ENUM]
def nsAll : List Ns := [.NAME, .FUNCTION, .TYPE, .TUPLE_STRUCT, .ENUM, .ENUM_VARIANT, .SCHEMA, .MODULE, .LEMMA]

/-- The kind of the nth element. -/
def kindAt (l : List Elem) (n : Nat) : Option SyntaxKind := l[n]?.map Elem.kind

/-- path_kind.rs:241–328, outside completion; the ancestors of the path. -/
def pathNamespaces (anc : List Elem) : List Ns :=
  match kindAt anc 0 with
  | some .PATH => nsEnumsModules
  | some .USE_SPECK => nsImportable
  | some .PATH_TYPE =>
    if kindAt anc 1 = some .IS_EXPR then nsContainer
    else if kindAt anc 3 = some .BEHAVIOR_PREDICATE_EXPR then nsCallable
    else nsItemType
  | some .CALL_EXPR => nsCallable
  | some .PATH_EXPR =>
    if kindAt anc 1 = some .CALL_EXPR then nsCallable
    else if anc.any (isNode .ATTR_ITEM) then nsAll
    else if kindAt anc 1 = some .INDEX_EXPR then nsIndexable
    else if kindAt anc 1 = some .APPLY_LEMMA then [.LEMMA]
    else nsValue
  | some .SCHEMA_LIT => nsSchemas
  | some .STRUCT_LIT | some .STRUCT_PAT | some .TUPLE_STRUCT_PAT | some .PATH_PAT => nsContainer
  | some .FRIEND | some .MODULE_SPEC => nsModules
  | _ => nsNames

/-- path_kind.rs:75–90. -/
inductive QualifiedKind where
  | module (a : Address)
  | moduleOrItem (a : Address)
  | itemOrVariant
  | fqItem
  | groupItem

/-- path_kind.rs:18–45. -/
inductive PathKind where
  | namedAddress (n : List Char)
  | valueAddress (n : List Char)
  | namedOrUnqualified (n : List Char) (ns : List Ns)
  | shorthand (field : List Elem)
  | unqualified (ns : List Ns)
  | qualified (qualifier : List Elem) (ns : List Ns) (kind : QualifiedKind)

/-- struct_lit_field.rs:28–55 for the name of a one-element path: the field that it is the shorthand of, with its ancestors. A
name directly in a field is not the name of a path. -/
def shorthandField (site : List Elem) : Option (List Elem) :=
  match (rootPath site).tail with
  | e :: f :: anc => if isNode .PATH_EXPR e && isNode .STRUCT_LIT_FIELD f && (nodeChild f .NAME_REF).isNone then some (f :: anc) else none
  | _ => none

/-- The use group around a path, with its ancestors (`ancestor_strict`). -/
def groupAround (anc : List Elem) : Option (List Elem) :=
  match anc.dropWhile fun e => !isNode .USE_GROUP e with
  | [] => none
  | l => some l

/-- path_kind.rs:92–239 with `is_completion` false and the own qualifier of the path. `named` are the named addresses of the
project (`resolve_named_address`). -/
def pathKind (named : List Char → Bool) (site : List Elem) : Option PathKind :=
  match site with
  | [] => none
  | p :: anc =>
    match groupAround anc with
    | some (_ :: speck :: rest) =>
      if isNode .USE_SPECK speck then
        (nodeChild speck .PATH).map fun q => .qualified (q :: speck :: rest) (nsImportable ++ nsModules) .groupItem
      else none
    | some _ => none
    | none =>
      if anc.isEmpty then none
      else
        let ns := pathNamespaces anc
        match qualifierOf site with
        | none =>
          match pathAddress p with
          | some a => some (.valueAddress (addressText a))
          | none =>
            match refName p with
            | none => none
            | some n =>
              if rootParentKind site = some .USE_SPECK && kindAt (rootPath site) 2 = some .USE_STMT then some (.namedAddress n)
              else if trailingColons site &&
                  (rootParentKind site = some .FRIEND || rootParentKind site = some .MODULE_SPEC) then some (.namedAddress n)
              else if trailingColons site && named n then some (.namedOrUnqualified n ns)
              else match shorthandField site with
                | some f => some (.shorthand f)
                | none => some (.unqualified ns)
        | some q =>
          match qualifierOf q with
          | none =>
            match q.head?.bind pathAddress with
            | some a => some (.qualified q nsModules (.module (.value (addressText a))))
            | none =>
              match q.head?.bind refName with
              | none => none
              | some m =>
                if rootParentKind site = some .USE_SPECK || rootParentKind site = some .FRIEND ||
                    rootParentKind site = some .MODULE_SPEC then
                  some (.qualified q nsModules (.module (.named m)))
                else if named m then some (.qualified q ns (.moduleOrItem (.named m)))
                else if trailingColons site then some (.qualified q ns (.moduleOrItem (.named m)))
                else some (.qualified q (ns.filter (· ≠ .MODULE)) .itemOrVariant)
          | some _ =>
            if rootParentKind site = some .USE_SPECK then some (.qualified q (ns ++ nsModules) .fqItem)
            else some (.qualified q (ns.filter (· ≠ .MODULE)) .fqItem)

end Verif.Nameres
