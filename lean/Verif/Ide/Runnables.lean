import Verif.Base.StableSort
import Verif.Ide.AutoImportOffers
import Verif.Ide.SymbolsCollect
import Verif.Nameres.ItemScope
import Verif.Nameres.Loc

/-! C84: the tests and transactions that can be run from a file.

`runnables` (ide/src/runnables.rs), `visit_file_defs` (ide-db/src/helpers.rs), `NavigationTarget::from_named_item`
(ide/src/navigation_target.rs) and `runnable` (aptos-language-server/src/lsp/to_proto.rs).

Runs of the prover are a parameter. The dependencies that go with a transaction are left out. -/

namespace Verif.Ide.Runnables
open Verif Verif.Syntax Verif.Nameres
open Verif.Parser (Green)
open Verif.Nameres.Full (Is Declares)
open Verif.Nameres.AutoImport (fqName addressIdent)
open Verif.Outline (NameOf)

/-! ### Model -/

/-- `RunnableKind` (runnables.rs:28–42). -/
inductive Kind where
  | test (path : List Char)
  | proveFun (only : List Char)
  | proveModule (filter : List Char)
  | transaction (name : List Char)
  deriving DecidableEq, Repr

/-- `Runnable` (runnables.rs:22–26) with what is used of its `NavigationTarget`. -/
structure Runnable where
  name : List Char
  focus : Nat × Nat
  full : Nat × Nat
  module : Bool
  kind : Kind
  deriving DecidableEq, Repr

/-- `NavigationTarget::from_named_item` (navigation_target.rs:194–213): the token of the name. The parser builds no name without it
(C72). -/
def target (e : Elem) : Option Elem := (nodeChild e .NAME).bind fun n => tokenChild n .IDENT

def runnable (e : Elem) (kind : Kind) : Option Runnable :=
  (target e).map fun t => ⟨t.green.text, (t.start, t.stop), (e.start, e.stop), isNode .MODULE e, kind⟩

/-- `is_test` (syntax/src/ast/node_ext/fun.rs:96–98). -/
def isTest (f : Elem) : Bool := (attrTexts f.green).contains "test".toList

/-- `is_entry` (fun.rs:81–83). -/
def isEntry (f : Elem) : Bool := (tokenChild f .ENTRY_KW).isSome

/-- The parts of a name with `::` between them (`format!("{}::{}", ..)` in fq_named_element.rs:48–69). -/
def joined : List (List Char) → List Char
  | [] => []
  | [a] => a
  | a :: rest => a ++ "::".toList ++ joined rest

/-- `runnable_for_fun` (runnables.rs:112–143), with `module_and_item_text` and `fq_identifier_text` (fq_named_element.rs:48–69). -/
def forFun (c : List Elem) (f : Elem) : Option Runnable :=
  if isTest f then (fqName ⟨0, f, c⟩).bind fun q => runnable f (.test (joined q.tail))
  else if isEntry f then (fqName ⟨0, f, c⟩).bind fun q => runnable f (.transaction (joined q))
  else none

/-- `runnable_for_module_with_test_funs` (runnables.rs:145–158). -/
def forModule (m : Elem) : Option Runnable :=
  if (itemsOfKind m .FUN).any isTest then (nameText m).bind fun n => runnable m (.test (n ++ "::".toList)) else none

/-- The first part of `runnables` (runnables.rs:77–88) with `visit_file_defs` (helpers.rs:26–40). -/
def visited (g : Green) : List Runnable :=
  (allModules (Elem.root g)).flatMap fun
    | [] => []
    | m :: anc => (forModule m).toList ++ (namedItems m).filterMap fun i => if isNode .FUN i then forFun (m :: anc) i else none

/-- `cmp_runnables` (runnables.rs:186–202): the start of the node, then the start of the name, then the name. Strings in UTF-8 are in
the order of the numbers of their characters. -/
def key (r : Runnable) : List Nat := r.full.1 :: r.focus.1 :: r.name.map Char.toNat

/-- `runnables` (runnables.rs:74–110); the runs of the prover are given. `sort_by` is stable. -/
def runnables (g : Green) (prover : List Runnable) : List Runnable := sortByKey key (visited g ++ prover)

/-- `if !args.contains(&extra_arg) { args.push(extra_arg) }` (to_proto.rs:880–884, 892–896, 904–908). -/
def push (args : List (List Char)) (a : List Char) : List (List Char) := if args.contains a then args else args ++ [a]

/-- What comes before the arguments that the user has configured (to_proto.rs:874–913). -/
def command : Kind → List (List Char)
  | .test path => ["move".toList, "test".toList, "--filter".toList, path]
  | .proveFun only => ["move".toList, "prove".toList, "--only".toList, only]
  | .proveModule filter => ["move".toList, "prove".toList, "--filter".toList, filter]
  | .transaction _ => []

/-- The arguments to `aptos` (to_proto.rs:874–913). -/
def aptosArgs (tests prover : List (List Char)) (k : Kind) : List (List Char) :=
  match k with
  | .test _ => tests.foldl push (command k)
  | .proveFun _ => prover.foldl push (command k)
  | .proveModule _ => prover.foldl push (command k)
  | .transaction _ => []

/-! ### Specification -/

/-- A function of the module with the attribute `#[test]`. -/
def TestOf (m f : Elem) : Prop := f ∈ m.children ∧ Is .FUN f ∧ HasAttr f.green "test"

/-- What can be run in a file: its tests, its entry functions that are no tests, and its modules with tests. All of them have names, and
the modules of functions have an address. -/
inductive Lens (g : Green) : Runnable → Prop where
  | test {m anc b mn f fn} : Declares (Elem.root g) m anc b → Is .MODULE m → NameOf m mn → TestOf m f → NameOf f fn →
      Lens g ⟨fn.green.text, (fn.start, fn.stop), (f.start, f.stop), false, .test (mn.green.text ++ "::".toList ++ fn.green.text)⟩
  | entry {m anc b mn f fn} : Declares (Elem.root g) m anc b → Is .MODULE m → NameOf m mn → f ∈ m.children → Is .FUN f →
      ¬ HasAttr f.green "test" → (∃ t ∈ f.children, t.green.isTok = true ∧ t.kind = .ENTRY_KW) → NameOf f fn →
      Lens g ⟨fn.green.text, (fn.start, fn.stop), (f.start, f.stop), false,
        .transaction (addressIdent b ++ "::".toList ++ mn.green.text ++ "::".toList ++ fn.green.text)⟩
  | module {m anc mn f} : AutoImport.Declared g m anc → NameOf m mn → TestOf m f →
      Lens g ⟨mn.green.text, (mn.start, mn.stop), (m.start, m.stop), true, .test (mn.green.text ++ "::".toList)⟩

/-- `aptos move test --filter` runs the tests that have the filter in their full names. -/
def Runs (filter : List Char) (address module function : List Char) : Prop :=
  filter <:+: address ++ "::".toList ++ module ++ "::".toList ++ function

end Verif.Ide.Runnables
