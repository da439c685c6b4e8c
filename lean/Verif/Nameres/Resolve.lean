import Verif.Nameres.Path

/-! Resolution of paths (lang/src/nameres/path_resolution.rs, name_resolution.rs, node_ext.rs, scope.rs; hir_db.rs). -/

namespace Verif.Nameres
open Verif.Parser (Green)
open Verif.Syntax

/-- What resolution asks the database, beyond what visibility asks: the names that mean `0x1` and the named addresses of the
project; the files of the packages that the package of a file depends on, itself included (hir_db.rs:119–123); the module
specifications of a module (node_ext.rs:43–59); what the scopes around a path say about a name in some namespaces, with the
scopes of the imports (name_resolution.rs:37–98, `C43`, `C59`); and the fields that a shorthand may name (nameres.rs:131–143). -/
structure Names extends World where
  framework : List Text
  addresses : Text → Option Text
  files : Nat → List Nat
  specs : Nat → Elem → List (Nat × Elem)
  walk : Nat → List Ns → Text → List Elem → List (Entry × Option ItemScope)
  fields : Nat → List Elem → List Entry

/-- `resolve_named_address(..).is_some()`. -/
def Names.named (w : Names) (n : Text) : Bool := (resolveNamed w.framework w.addresses n).isSome

/-! ### Modules and their items -/

/-- `HasName::name` and `Name::as_string` (generated/nodes.rs, node_ext/name.rs). -/
def nameText (e : Elem) : Option Text := (nodeChild e .NAME).map fun n =>
  match tokenChild n .IDENT with
  | some t => t.green.text
  | none => []

/-- `address_ref()` of a module or address definition: the first child that is one. -/
def addressRef (e : Elem) : Option Elem := e.children.find? fun c => isNode .NAMED_ADDRESS c || isNode .VALUE_ADDRESS c

/-- node_ext.rs:21–30 of lang/src, on the address; the parser never builds one without its token. -/
def refAddress (a : Elem) : Address :=
  if a.kind = .NAMED_ADDRESS then .named (match tokenChild a .IDENT with | some t => t.green.text | none => [])
  else .value (match tokenChild a .INT_NUMBER with | some t => t.green.text | none => [])

/-- syntax/src/ast/node_ext/module.rs:14–21 with `ModuleLangExt::address`. A module is given with its ancestors. -/
def moduleAddress : List Elem → Option Address
  | [] => none
  | [m] => (addressRef m).map refAddress
  | m :: p :: _ => match addressRef m with
    | some a => some (refAddress a)
    | none => if isNode .ADDRESS_DEF p then (addressRef p).map refAddress else none

/-- syntax/src/ast/node_ext/source_file.rs:12–15. -/
def allModules (root : Elem) : List (List Elem) :=
  ((root.children.filter (isNode .MODULE)).map fun m => [m, root]) ++
  (root.children.filter (isNode .ADDRESS_DEF)).flatMap fun d => (d.children.filter (isNode .MODULE)).map fun m => [m, d, root]

/-- hir_db.rs:312–318 for a module with its ancestors. -/
def moduleIfAt (w : Names) (a : Address) (c : List Elem) : Option Elem :=
  match moduleAddress c with
  | some b => if b.equalsTo w.framework w.addresses a false then c.head? else none
  | none => none

/-- hir_db.rs:305–320. -/
def modulesInFile (w : Names) (file : Nat) (a : Address) : List Elem :=
  (allModules (Elem.root (w.tree file))).filterMap (moduleIfAt w a)

/-- node_ext/struct_.rs:19–21: the first list of fields is one of tuple fields. -/
def isTupleStruct (e : Elem) : Bool :=
  match e.children.find? fun c => isNode .NAMED_FIELD_LIST c || isNode .TUPLE_FIELD_LIST c with
  | some l => decide (l.kind = .TUPLE_FIELD_LIST)
  | none => false

/-- namespaces.rs:78–105; the other kinds never get there. -/
def itemNs (e : Elem) : Ns :=
  match e.kind with
  | .MODULE => .MODULE
  | .SPEC_FUN | .FUN | .SPEC_INLINE_FUN => .FUNCTION
  | .TYPE_PARAM => .TYPE
  | .STRUCT => if isTupleStruct e then .TUPLE_STRUCT else .TYPE
  | .ENUM => .ENUM
  | .VARIANT => .ENUM_VARIANT
  | .SCHEMA => .SCHEMA
  | .LEMMA => .LEMMA
  | _ => .NAME

/-- scope.rs:65–80. -/
def itemEntry (file : Nat) (e : Elem) : Option Entry := (nameText e).map fun n => ⟨n, itemNs e, file, e.path⟩

/-- name_resolution.rs:100–119. -/
def modulesAsEntries (w : Names) (file : Nat) (a : Address) : List Entry :=
  (w.files file).flatMap fun f => (modulesInFile w f a).filterMap (itemEntry f)

/-- has_item_list.rs:52–57 with `spec_block()`: the blocks of `spec module`. -/
def moduleSpecBlocks (m : Elem) : List Elem :=
  ((m.children.filter (isNode .ITEM_SPEC)).filter fun s => (tokenChild s .MODULE_KW).isSome).filterMap fun s => nodeChild s .BLOCK_EXPR

/-- has_item_list.rs:70–118: what the `spec module` blocks declare. -/
def specDecls (m : Elem) (k : SyntaxKind) : List Elem := (moduleSpecBlocks m).flatMap fun b => b.children.filter (isNode k)

def itemsOfKind (m : Elem) (k : SyntaxKind) : List Elem := m.children.filter (isNode k)

/-- syntax/src/ast/node_ext/module.rs:30–48 with has_item_list.rs. -/
def namedItems (m : Elem) : List Elem :=
  itemsOfKind m .CONST ++ itemsOfKind m .ENUM ++ itemsOfKind m .STRUCT ++ itemsOfKind m .SCHEMA ++ itemsOfKind m .FUN ++
  itemsOfKind m .SPEC_FUN ++ specDecls m .SPEC_INLINE_FUN ++
  ((itemsOfKind m .SPEC_LEMMA).filterMap fun l => nodeChild l .LEMMA) ++ specDecls m .LEMMA

/-- node_ext.rs:34–41 of lang/src/nameres. -/
def importableEntries (file : Nat) (m : Elem) : List Entry :=
  (namedItems m).filterMap (itemEntry file) ++ (specDecls m .GLOBAL_VARIABLE_DECL).filterMap (itemEntry file)

/-- syntax/src/ast/node_ext/module_spec.rs:12–21. -/
def specItems (s : Elem) : List Elem :=
  itemsOfKind s .SCHEMA ++ itemsOfKind s .SPEC_FUN ++ specDecls s .SPEC_INLINE_FUN ++ specDecls s .GLOBAL_VARIABLE_DECL

/-- node_ext.rs:61–73 of lang/src/nameres. -/
def relatedEntries (w : Names) (file : Nat) (m : Elem) : List Entry :=
  (w.specs file m).flatMap fun s => (specItems s.2).filterMap (itemEntry s.1)

/-- node_ext/enum_.rs:12–16. -/
def variantsOf (e : Elem) : List Elem := match nodeChild e .VARIANT_LIST with
  | some l => l.children.filter (isNode .VARIANT)
  | none => []

/-! ### Paths -/

/-- `NamedElement` (generated/nodes.rs:8474). -/
def namedKinds : List SyntaxKind :=
  [.CONST, .ENUM, .FUN, .GLOBAL_VARIABLE_DECL, .IDENT_PAT, .LEMMA, .MODULE, .NAMED_FIELD, .SCHEMA, .SPEC_FUN, .SPEC_INLINE_FUN,
   .STRUCT, .TYPE_PARAM, .USE_ALIAS, .VARIANT]

/-- `cast_into::<NamedElement>` of an entry: the element at its location. -/
def placeAt (w : World) (e : Entry) : Option Place :=
  match down [Elem.root (w.tree e.file)] e.path.reverse with
  | some (i :: anc) => if !i.green.isTok && namedKinds.contains i.kind then some ⟨e.file, i, anc⟩ else none
  | _ => none

/-- scope.rs:155–177. `expected` is the enum that the expected type is, if it is one. -/
def fitsExpected (w : Names) (expected : Option (Nat × Elem)) (e : Entry) : Bool :=
  match placeAt w.toWorld e with
  | none => false
  | some p =>
    if p.elem.kind ≠ .VARIANT then true
    else match expected with
      | none => false
      | some (f, enum_) => decide (p.file = f) && (variantsOf enum_).any fun v => decide (v.path = p.elem.path)

/-- path_resolution.rs:196–224. -/
def functionCase (isCall : Bool) (es : List (Entry × Option Invisible)) : List (Entry × Option Invisible) :=
  if isCall then
    let funs := es.filter fun x => decide (x.1.ns = .FUNCTION)
    if !funs.isEmpty then funs else es
  else if es.length > 1 then
    let rest := es.filter fun x => decide (x.1.ns ≠ .FUNCTION)
    if rest.length = 1 then rest else es
  else es

/-- path_resolution.rs:279–297 (`is_call_expr`). -/
def isCallPath (site : List Elem) : Bool :=
  decide (kindAt (rootPath site) 1 = some .PATH_EXPR) && decide (kindAt (rootPath site) 2 = some .CALL_EXPR)

/-- nameres.rs:116–122: the single visible entry. -/
def single (es : List (Entry × Option Invisible)) : Option Entry :=
  match es.filter fun x => x.2.isNone with
  | [x] => some x.1
  | _ => none

def selfText : Text := "Self".toList

/-- path_resolution.rs:88–99: the name `Self`. -/
def selfEntry (file : Nat) (ns : List Ns) (site : List Elem) : List Entry :=
  if ns.contains .MODULE then
    match site.tail.find? (isNode .MODULE) with
    | some m => [⟨selfText, .MODULE, file, m.path⟩]
    | none => []
  else []

/-- name_resolution.rs:126–172. `one` is what the qualifier `q` resolves to. -/
def qualifiedEntries (w : Names) (file : Nat) (site : List Elem) (q : List Elem) (one : Option Entry) : List Entry :=
  match one with
  | none => match q.head?.bind refName with
    | some n => modulesAsEntries w file (.named n)
    | none => []
  | some r => match placeAt w.toWorld r with
    | none => []
    | some p =>
      if p.elem.kind = .MODULE then
        (if site.tail.any (isNode .USE_SPECK) then [⟨selfText, .MODULE, r.file, r.path⟩] else []) ++
        importableEntries r.file p.elem ++ relatedEntries w r.file p.elem
      else if p.elem.kind = .ENUM then (variantsOf p.elem).filterMap (itemEntry r.file)
      else []

/-- path_resolution.rs:54–118; `one` resolves the qualifier. -/
def variantsFor (w : Names) (file : Nat) (name : Text) (site : List Elem) (one : List Elem → Option Entry) :
    PathKind → List (Entry × Option ItemScope)
  | .namedAddress _ | .valueAddress _ => []
  | .shorthand f => w.walk file nsNames name site ++ (w.fields file f).map fun e => (e, none)
  | .namedOrUnqualified _ ns | .unqualified ns => ((selfEntry file ns site).map fun e => (e, none)) ++ w.walk file ns name site
  | .qualified _ _ (.module a) => (modulesAsEntries w file a).map fun e => (e, none)
  | .qualified q ns _ => ((qualifiedEntries w file site q (one q)).filter fun e => ns.contains e.ns).map fun e => (e, none)

/-- path_resolution.rs:30–52. -/
def refineExpected (w : Names) (one : List Elem → Option Entry) (expected : Option (Nat × Elem)) : PathKind → Option (Nat × Elem)
  | .qualified q _ .itemOrVariant | .qualified q _ .fqItem =>
    match (one q).bind (placeAt w.toWorld) with
    | some p => if p.elem.kind = .ENUM then some (p.file, p.elem) else expected
    | none => expected
  | _ => expected

/-- path_resolution.rs:156–194. The path is given with its ancestors; the recursion goes through the qualifiers, at most `fuel`
of them, which the code has no bound for: a qualifier is a part of the path or comes before the group around it. -/
def resolvePath (w : Names) : Nat → Nat → Option (Nat × Elem) → List Elem → List (Entry × Option Invisible)
  | 0, _, _, _ => []
  | fuel + 1, file, expected, site =>
    match site with
    | [] => []
    | p :: anc =>
      match refName p with
      | none => []
      | some name =>
        match pathKind w.named (p :: anc) with
        | none => []
        | some kind =>
          let one := fun q => single (resolvePath w fuel file none q)
          let entries := (variantsFor w file name (p :: anc) one kind).filter fun x => decide (x.1.name = name)
          let fitting := entries.filter fun x => fitsExpected w (refineExpected w one expected kind) x.1
          functionCase (isCallPath (p :: anc))
            (fitting.map fun x => (x.1, isVisible w.toWorld x.1.ns x.2 (placeAt w.toWorld x.1) ⟨file, p, anc⟩))

end Verif.Nameres
