import Mathlib.Data.List.Lex
import Verif.Base.StableSort
import Verif.Ide.AutoImport
import Verif.Ide.Outline

/-! Workspace symbols: `workspace/symbol`.

ide-db/src/symbol_index.rs with symbol_index/collector.rs and symbol_index/sym_db.rs, `Analysis::symbol_search` (ide/src/lib.rs:283–295),
`NavigationTarget::from_syntax_loc` (ide/src/navigation_target.rs:134–191), `handle_workspace_symbol` (handlers/request.rs:170–213 of
aptos-language-server).

`none` of `Option` at the outside of a result is a panic. -/

namespace Verif.Symbols
open Verif Verif.Syntax Verif.Nameres
open Verif.Nameres.AutoImport (addressIdent)
open Verif.Outline (LspKind lspKind symbolKind)

/-! ### What is collected -/

/-- `FileSymbol` (sym_db.rs:121–134). The place of the declaration is the file and the path to the node. -/
structure FileSymbol where
  name : List Char
  file : Nat
  path : List Nat
  container : Option (List Char)
  deriving DecidableEq, Repr

/-- `FieldList` casts from two kinds; `named_fields` (struct_.rs:11–13, enum_.rs:26–28, field_list.rs:10–15). -/
def namedFields (e : Elem) : List Elem :=
  match e.children.find? fun c => isNode .NAMED_FIELD_LIST c || isNode .TUPLE_FIELD_LIST c with
  | some l => if isNode .NAMED_FIELD_LIST l then l.children.filter (isNode .NAMED_FIELD) else []
  | none => []

/-- `variants` (enum_.rs:12–16). -/
def variants (e : Elem) : List Elem :=
  match nodeChild e .VARIANT_LIST with
  | some l => l.children.filter (isNode .VARIANT)
  | none => []

/-- The symbol of a node, if it has a name (collector.rs:74, 89–93). -/
def own (file : Nat) (container : Option (List Char)) (e : Elem) : List FileSymbol :=
  (nameText e).toList.map fun n => ⟨n, file, e.path, container⟩

/-- `collect_enum_variant` (collector.rs:97–106). -/
def collectVariant (file : Nat) (enum : List Char) (v : Elem) : List FileSymbol :=
  match nameText v with
  | none => []
  | some n => own file (some enum) v ++ (namedFields v).flatMap (own file (some n))

/-- `collect_named_item` (collector.rs:67–95). Fields are neither structs nor enums, so nothing is collected in them. -/
def collectItem (file : Nat) (container : Option (List Char)) (e : Elem) : List FileSymbol :=
  match nameText e with
  | none => []
  | some n =>
    (if isNode .STRUCT e then (namedFields e).flatMap (own file (some n)) else []) ++
    (if isNode .ENUM e then (variants e).flatMap (collectVariant file n) else []) ++
    own file container e

/-- `collect_module` (collector.rs:53–65), for a module with the nodes around it. -/
def collectModule (file : Nat) : List Elem → List FileSymbol
  | [] => []
  | m :: anc =>
    match nameText m with
    | none => []
    | some n => collectItem file ((moduleAddress (m :: anc)).map addressIdent) m ++ (namedItems m).flatMap (collectItem file (some n))

/-- `IndexSet::insert`. -/
def insertNew (l : List FileSymbol) (s : FileSymbol) : List FileSymbol := if s ∈ l then l else l ++ [s]

/-- `world_symbols_in_package` (sym_db.rs:17–28) up to the index: the modules of the files of the package, one after the other
(hir_db.rs:133–157). -/
def packageSymbols (tree : Nat → Parser.Green) (files : List Nat) : List FileSymbol :=
  (files.flatMap fun f => (allModules (Elem.root (tree f))).flatMap (collectModule f)).foldl insertNew []

/-! ### The index -/

/-- The name in lower case (sym_db.rs:59–60, 78), as the numbers of its characters. `str::to_ascii_lowercase`; strings in UTF-8 are in
the order of the numbers of their characters. -/
def key (s : FileSymbol) : List Nat := s.name.map fun c => c.toLower.toNat

/-- `fst::MapBuilder::insert(..).unwrap()`: the keys must increase. -/
def insert (m : List (List Nat × Nat)) (k : List Nat) (v : Nat) : Option (List (List Nat × Nat)) :=
  match m.getLast? with
  | some (k', _) => if k' < k then some (m ++ [(k, v)]) else none
  | none => some (m ++ [(k, v)])

/-- `range_to_map_value` (sym_db.rs:104–109), in 64 bits. -/
def packRange (start stop : Nat) : Nat := (start <<< 32 % 2 ^ 64) ||| stop

/-- `map_value_to_range` (sym_db.rs:111–115). -/
def unpackRange (v : Nat) : Nat × Nat := (v >>> 32, v % 2 ^ 32)

/-- One turn of the loop (sym_db.rs:70–82): the start of the batch and the map. -/
def batch (symbols : List FileSymbol) (st : Nat × List (List Nat × Nat)) (idx : Nat) : Option (Nat × List (List Nat × Nat)) :=
  match symbols[st.1]? with
  | none => none
  | some first =>
    if (symbols[idx + 1]?).any (fun next => decide (key first = key next)) then some st
    else (insert st.2 (key first) (packRange st.1 (idx + 1))).map fun m => (idx + 1, m)

/-- `SymbolIndex`. -/
structure Index where
  symbols : List FileSymbol
  map : List (List Nat × Nat)

/-- `SymbolIndex::new` (sym_db.rs:57–94). -/
def Index.new (symbols : List FileSymbol) : Option Index :=
  let s := sortByKey key symbols
  ((List.range s.length).foldlM (batch s) (0, [])).map fun st => ⟨s, st.2⟩

/-! ### The search -/

/-- `fst::automaton::Subsequence`. -/
def subsequence : List Nat → List Nat → Bool
  | [], _ => true
  | _ :: _, [] => false
  | q :: qs, k :: ks => if q = k then subsequence qs ks else subsequence (q :: qs) ks

/-- `fst::map::OpBuilder::union` of the searches in some maps: the keys with the numbers of the maps and the values. The keys do not
decrease, and everything found is there once. -/
structure IsUnion (ins : List (List (List Nat × Nat))) (out : List (List Nat × List (Nat × Nat))) : Prop where
  sorted : out.Pairwise fun a b => a.1 ≤ b.1
  perm : (out.flatMap fun x => x.2.map fun y => (x.1, y)).Perm (ins.zipIdx.flatMap fun m => m.1.map fun x => (x.1, (m.2, x.2)))

/-- `SearchMode::check` (symbol_index.rs:163–188) with `case_sensitive = false`. -/
def check : List Char → List Char → Bool
  | [], _ => true
  | q :: qs, name =>
    match name.dropWhile fun c => !(c == q || c == q.toUpper) with
    | [] => false
    | _ :: rest => check qs rest

/-- The test of a symbol (symbol_index.rs:119, 128–133). -/
def shown (query : List Char) (s : FileSymbol) : Bool :=
  !(!(['_', '_'].isPrefixOf query) && ['_', '_'].isPrefixOf s.name) && check query s.name

/-- Slicing, which panics outside of the list. -/
def slice (l : List FileSymbol) (start stop : Nat) : Option (List FileSymbol) :=
  if start ≤ stop ∧ stop ≤ l.length then some ((l.take stop).drop start) else none

/-- The symbols of one value (symbol_index.rs:122–135). -/
def hits (query : List Char) (indices : List Index) (y : Nat × Nat) : Option (List FileSymbol) :=
  (indices[y.1]?).bind fun ix => (slice ix.symbols (unpackRange y.2).1 (unpackRange y.2).2).map fun l => l.filter (shown query)

/-- `search_maps` (symbol_index.rs:113–138) for a callback that goes on. -/
def searchMaps (query : List Char) (indices : List Index) (stream : List (List Nat × List (Nat × Nat))) : Option (List FileSymbol) :=
  (stream.flatMap fun x => x.2).foldlM (fun acc y => (hits query indices y).map fun l => acc ++ l) []

/-- `Query::search` up to the union (symbol_index.rs:95–101): what is found in each map. `lower` is `str::to_lowercase`. -/
def found (lower : List Char → List Char) (query : List Char) (indices : List Index) : List (List (List Nat × Nat)) :=
  indices.map fun ix => ix.map.filter fun x => subsequence ((lower query).map Char.toNat) x.1

/-- `world_symbols` (symbol_index.rs:45–60) for the symbols of the packages. `union` is the union of the streams. -/
def worldSymbols (lower : List Char → List Char) (union : List (List (List Nat × Nat)) → List (List Nat × List (Nat × Nat)))
    (packages : List (List FileSymbol)) (query : List Char) : Option (List FileSymbol) :=
  (packages.mapM Index.new).bind fun indices => searchMaps query indices (union (found lower query indices))

/-! ### The answer -/

/-- `WorkspaceSymbol`, with offsets for positions. -/
structure Answer where
  name : List Char
  kind : LspKind
  file : Nat
  range : Nat × Nat
  container : Option (List Char)
  deriving DecidableEq, Repr

/-- `from_syntax_loc` (navigation_target.rs:134–191) and the loop of `handle_workspace_symbol` (request.rs:184–207), for a named
element. Labels and tuple fields are not collected. The place is that of the name (`focus_or_full_range`); the container is that of
the navigation target, which `from_syntax` (navigation_target.rs:215–232) leaves empty. -/
def answer (tree : Nat → Parser.Green) (builtins : Option Nat) (s : FileSymbol) : Option Answer :=
  if builtins = some s.file then none
  else match down [Elem.root (tree s.file)] s.path.reverse with
    | some (e :: anc) =>
      if Outline.namedElement e.kind && !e.green.isTok then
        some ⟨s.name, lspKind (symbolKind e.kind (anc.head?.map Elem.kind)), s.file,
          match (nodeChild e .NAME).bind fun n => tokenChild n .IDENT with
          | some t => (t.start, t.stop)
          | none => (e.start, e.stop), none⟩
      else none
    | _ => none

/-- request.rs:178–182: the limit, from the number in the environment. -/
def limitOf (env : Option Nat) : Option Nat := if env.getD 128 = 0 then none else some (env.getD 128)

/-- `symbol_search` (ide/src/lib.rs:283–295) and `handle_workspace_symbol`. -/
def workspaceSymbols (lower : List Char → List Char) (union : List (List (List Nat × Nat)) → List (List Nat × List (Nat × Nat)))
    (tree : Nat → Parser.Green) (builtins : Option Nat) (packages : List (List Nat)) (env : Option Nat) (query : List Char) :
    Option (List Answer) :=
  (worldSymbols lower union (packages.map (packageSymbols tree)) query).map fun l =>
    let all := l.filterMap (answer tree builtins)
    match limitOf env with
    | some n => all.take n
    | none => all

end Verif.Symbols
