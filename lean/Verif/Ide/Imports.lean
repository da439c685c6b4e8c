import Verif.Nameres.Path

/-! Unused imports (ide-diagnostics/src/handlers/unused_import.rs, unused_import/use_items.rs, lang/src/hir_db/use_items_ext.rs,
lang/src/nameres/use_speck_entries.rs). -/

namespace Verif.Ide
open Verif.Parser (Green)
open Verif.Syntax Verif.Nameres

/-- use_speck_entries.rs:48–53. -/
inductive UseType where
  | Module | SelfModule | Item
  deriving DecidableEq, Repr

/-- use_speck_entries.rs:55–61; the location of the use speck is its file and path. -/
structure UseItem where
  file : Nat
  path : List Nat
  name : List Char
  type : UseType
  scope : ItemScope
  deriving DecidableEq, Repr

/-- What the analysis asks the database: the trees of the files, the named addresses that are declared
(`hir_db::named_addresses`) and those that resolve (`resolve_named_address`), and the siblings of a module or of a module
specification (use_items_ext.rs:79–100): its specifications in other places, or its module, each with its ancestors. -/
structure Project where
  tree : Nat → Green
  declared : List Char → Bool
  named : List Char → Bool
  siblings : Nat → Elem → List (Nat × List Elem)

/-- hir_db.rs:297–303. -/
def Project.scope (w : Project) (file : Nat) (e : Elem) : ItemScope := itemScope (w.tree file) (Elem.ptr e)

/-- `AnyUseStmtsOwner` (generated/nodes.rs). -/
def ownerKinds : List SyntaxKind := [.BLOCK_EXPR, .MODULE, .MODULE_SPEC, .SCRIPT]

def isOwner (e : Elem) : Bool := !e.green.isTok && ownerKinds.contains e.kind

/-- traits/has_use_stmts.rs:11–14. -/
def useStmts (owner : Elem) : List Elem := owner.children.filter (isNode .USE_STMT)

/-- `use_alias().and_then(|alias| alias.name()).map(as_string)`. -/
def aliasName (speck : Elem) : Option (List Char) :=
  ((nodeChild speck .USE_ALIAS).bind fun a => nodeChild a .NAME).map fun n =>
    match tokenChild n .IDENT with
    | some t => t.green.text
    | none => []

def selfName : List Char := "Self".toList

/-- use_speck_entries.rs:141–189. `root` is the root use speck with its ancestors. -/
def childUseItem (w : Project) (file : Nat) (scope : ItemScope) (root : List Elem) (child : Elem) : Option UseItem :=
  match root with
  | [] => none
  | r :: anc =>
    match nodeChild r .PATH with
    | none => none
    | some q =>
      match refName q with
      | none => none
      | some moduleName =>
        match (nodeChild child .PATH).bind refName with
        | none => none
        | some childName =>
          if childName = selfName then some ⟨file, child.path, (aliasName child).getD moduleName, .SelfModule, scope⟩
          else match pathKind w.named (q :: r :: anc) with
            | some (.qualified ..) => some ⟨file, child.path, (aliasName child).getD childName, .Item, scope⟩
            | _ => none

/-- use_speck_entries.rs:69–139. `anc` are the ancestors of the statement; of these only those up to the owner of the statement
are given in `useItems`, as no use group is around one. -/
def stmtUseItems (w : Project) (file : Nat) (stmt : Elem) (anc : List Elem) : Option (List UseItem) :=
  let scope := w.scope file stmt
  match nodeChild stmt .USE_SPECK with
  | none => none
  | some root =>
    match nodeChild root .USE_GROUP with
    | some group => some ((group.children.filter (isNode .USE_SPECK)).filterMap (childUseItem w file scope (root :: stmt :: anc)))
    | none =>
      match nodeChild root .PATH with
      | none => none
      | some p =>
        match refName p with
        | none => none
        | some rootName =>
          match pathKind w.named (p :: root :: stmt :: anc) with
          | none => none
          | some (.qualified q _ kind) =>
            match kind with
            | .module _ => some [⟨file, root.path, (aliasName root).getD rootName, .Module, scope⟩]
            | .fqItem =>
              match q.head?.bind refName with
              | none => some []
              | some moduleName =>
                if rootName = selfName then some [⟨file, root.path, (aliasName root).getD moduleName, .SelfModule, scope⟩]
                else some [⟨file, root.path, (aliasName root).getD rootName, .Item, scope⟩]
            | _ => some []
          | some _ => some []

/-- use_items_ext.rs:21–44. -/
def useItems (w : Project) (file : Nat) (owner : Elem) : List UseItem :=
  (useStmts owner).flatMap fun s => (stmtUseItems w file s [owner]).getD []

/-- use_items_ext.rs:79–100. An owner is given with its ancestors. -/
def withSiblings (w : Project) (file : Nat) (owner : List Elem) : List (Nat × List Elem) :=
  (file, owner) :: match owner with
    | [] => []
    | o :: _ => if o.kind = .MODULE ∨ o.kind = .MODULE_SPEC then w.siblings file o else []

/-- use_items_ext.rs:21–44. -/
def itemsOf (w : Project) (o : Nat × List Elem) : List UseItem := match o.2 with
  | [] => []
  | e :: _ => useItems w o.1 e

/-- use_items_ext.rs:102–119. -/
def combinedUseItems (w : Project) (file : Nat) (owner : List Elem) : List UseItem :=
  (withSiblings w file owner).flatMap (itemsOf w)

mutual
/-- `descendants()` of a node, each with its ancestors. -/
def nodeChains (anc : List Elem) (path : List Nat) (start : Nat) : Green → List (List Elem)
  | .tok _ _ => []
  | .node k cs => (⟨path, start, .node k cs⟩ :: anc) :: nodeChainss (⟨path, start, .node k cs⟩ :: anc) path 0 start cs
def nodeChainss (anc : List Elem) (path : List Nat) (i start : Nat) : List Green → List (List Elem)
  | [] => []
  | g :: gs => nodeChains anc (i :: path) start g ++ nodeChainss anc path (i + 1) (start + g.len) gs
end

/-- use_items_ext.rs:73–77: the base paths that are not in a use statement, with their ancestors. -/
def descendantPaths : List Elem → List (List Elem)
  | [] => []
  | o :: anc => (nodeChains anc o.path o.start o.green).filter fun s => match s with
    | p :: anc => isNode .PATH p && (nodeChild p .PATH).isNone && !anc.any (isNode .USE_SPECK)
    | [] => false

/-- use_items.rs:93–98. -/
inductive BaseType where
  | address
  | module (name : List Char)
  | item (name : List Char)
  deriving DecidableEq

/-- use_items.rs:100–129. -/
def baseType (w : Project) (site : List Elem) : Option BaseType :=
  match qualifierOf (rootPath site) with
  | none => ((rootPath site).head?.bind refName).map .item
  | some q =>
    if (q.head?.bind pathAddress).isSome then some .address
    else if ((qualifierOf q).bind fun q => q.head?.bind refName).any w.declared then some .address
    else (q.head?.bind refName).map .module

/-- use_items.rs:73–91. -/
def matchesType (t : BaseType) (u : UseItem) : Bool :=
  match t with
  | .item n => decide (u.type = .Item) && decide (u.name = n)
  | .module n => (decide (u.type = .Module) || decide (u.type = .SelfModule)) && decide (u.name = n)
  | .address => false

/-- The owners around a place, each with its ancestors, from the inside out (`ancestors_of_type`). -/
def ownersOf : List Elem → List (List Elem)
  | [] => []
  | e :: anc => if isOwner e then (e :: anc) :: ownersOf anc else ownersOf anc

/-- use_items.rs:42–68, for the owners from the inside out. `specific` is the scope of the path unless that is the main one. -/
def hitIn (w : Project) (file : Nat) (specific : Option ItemScope) (t : BaseType) : List (List Elem) → Option UseItem
  | [] => none
  | o :: os =>
    let hits := (combinedUseItems w file o).filter fun u =>
      (decide (u.scope = .Main) || decide (some u.scope = specific)) && matchesType t u
    match (specific.bind fun s => hits.find? fun u => decide (u.scope = s)).or (hits.find? fun u => decide (u.scope = .Main)) with
    | some u => some u
    | none => hitIn w file specific t os

/-- The scope of a path, unless that is the main one (use_items.rs:32–37). -/
def specificScope (w : Project) (file : Nat) (p : Elem) : Option ItemScope :=
  if w.scope file p ≠ .Main then some (w.scope file p) else none

/-- use_items.rs:26–71. -/
def hitOf (w : Project) (file : Nat) (site : List Elem) : Option UseItem :=
  match site with
  | [] => none
  | p :: _ =>
    match baseType w site with
    | none => none
    | some t => hitIn w file (specificScope w file p) t (ownersOf site)

/-- use_items.rs:12–24 with use_items_ext.rs:60–71: the imports that are used, with the scopes of the paths that use them. -/
def scopedHits (w : Project) (file : Nat) (owner : List Elem) : List (UseItem × ItemScope) :=
  (withSiblings w file owner).flatMap fun o => (descendantPaths o.2).filterMap fun site =>
    match site with
    | [] => none
    | p :: _ => (hitOf w o.1 site).map fun u => (u, w.scope o.1 p)

/-- unused_import.rs:67–70. -/
def hits (w : Project) (file : Nat) (owner : List Elem) : List UseItem := (scopedHits w file owner).map Prod.fst

/-- A use statement with its file and its owner. -/
structure Stmt where
  file : Nat
  owner : Elem
  elem : Elem

def Stmt.items (w : Project) (s : Stmt) : Option (List UseItem) := stmtUseItems w s.file s.elem [s.owner]

/-- use_items_ext.rs:46–58. -/
def combinedStmts (w : Project) (file : Nat) (owner : List Elem) : List Stmt :=
  (withSiblings w file owner).flatMap fun o => match o.2 with
    | [] => []
    | e :: _ => (useStmts e).map fun s => ⟨o.1, e, s⟩

/-- unused_import.rs:73–79. The function gives nothing as soon as one of the statements has no use speck, path or name. -/
def unusedIn (w : Project) (hit : List UseItem) : List Stmt → Option (List UseItem)
  | [] => some []
  | s :: rest =>
    match s.items w with
    | none => none
    | some us => (unusedIn w hit rest).map fun more => (us.filter fun u => !hit.contains u) ++ more

/-- unused_import.rs:61–82. -/
def unusedUseItems (w : Project) (file : Nat) (owner : List Elem) : Option (List UseItem) :=
  unusedIn w (hits w file owner) (combinedStmts w file owner)

/-- unused_import.rs:84–100: what is marked, a whole statement or the use specks of a group. -/
inductive Mark where
  | stmt (file : Nat) (path : List Nat)
  | specks (us : List UseItem)
  deriving DecidableEq

/-- `use_stmt.loc().contains(&it.use_speck_loc)` (unused_import.rs:43): the use speck is in the statement. -/
def Stmt.has (s : Stmt) (u : UseItem) : Bool := decide (u.file = s.file) && s.elem.path.isSuffixOf u.path

/-- unused_import.rs:117–156. -/
def unusedKind (w : Project) (s : Stmt) (unused : List UseItem) : Option Mark :=
  if unused.any fun u => decide (u.type = .Module) then some (.stmt s.file s.elem.path)
  else match s.items w with
    | none => none
    | some us =>
      if us.isEmpty then some (.stmt s.file s.elem.path)
      else if us.length = unused.length then some (.stmt s.file s.elem.path)
      else some (.specks unused)

/-- unused_import.rs:39–47: what is marked as unused, up to the first statement without use speck, path or name. -/
def markedIn (w : Project) (unused : List UseItem) : List Stmt → List Mark
  | [] => []
  | s :: rest =>
    match unusedKind w s (unused.filter s.has) with
    | none => []
    | some m => m :: markedIn w unused rest

/-- unused_import.rs:22–48. For a block without use statements (28–34) that is the empty list. -/
def marked (w : Project) (file : Nat) (owner : List Elem) : List Mark :=
  markedIn w ((unusedUseItems w file owner).getD []) (combinedStmts w file owner)

/-- reduced_scope_import.rs:18–25: code for the prover counts as code of the main scope. -/
def usageScope (s : ItemScope) : ItemScope := match s with
  | .Verify => .Main
  | s => s

/-- reduced_scope_import.rs:27–60 for one use item: of the scopes that it is declared for, the main one is the only one that does
not use it. -/
def testOnly (hit : List (UseItem × ItemScope)) (u : UseItem) : Bool :=
  match u.scope with
  | .Main => !hit.contains (u, .Main) && hit.contains (u, .Test)
  | _ => false

/-- reduced_scope_import.rs:28–62. -/
def testOnlyIn (w : Project) (hit : List (UseItem × ItemScope)) : List Stmt → Option (List UseItem)
  | [] => some []
  | s :: rest =>
    match s.items w with
    | none => none
    | some us => (testOnlyIn w hit rest).map fun more => us.filter (testOnly hit) ++ more

/-- reduced_scope_import.rs:11–63. -/
def testOnlyUseItems (w : Project) (file : Nat) (owner : List Elem) : Option (List UseItem) :=
  testOnlyIn w ((scopedHits w file owner).map fun h => (h.1, usageScope h.2)) (combinedStmts w file owner)

/-- unused_import.rs:50–57: what is marked as used in tests only. -/
def broadIn (w : Project) (broad : List UseItem) : List Stmt → List Mark
  | [] => []
  | s :: rest =>
    match unusedKind w s (broad.filter s.has) with
    | none => []
    | some m => (if s.items w = some [] then [] else [m]) ++ broadIn w broad rest

/-- unused_import.rs:48–57, with 207–211: nothing is marked in a statement that imports nothing. The statements are gone through
only if those before gave a kind each in 39–47. -/
def markedBroad (w : Project) (file : Nat) (owner : List Elem) : List Mark :=
  if (combinedStmts w file owner).all fun s => (unusedKind w s (((unusedUseItems w file owner).getD []).filter s.has)).isSome then
    broadIn w ((testOnlyUseItems w file owner).getD []) (combinedStmts w file owner)
  else []

end Verif.Ide
