import Verif.Ide.ImportsReport

/-! C66: examples, and what the report of unused imports gets wrong. -/

namespace Verif.Ide
open Verif.Parser (Green)
open Verif.Syntax Verif.Nameres
open Verif.Ide.Usages (parseOf)

/-- A project of one file, without named addresses. -/
def oneFile (text : List Char) : Project := ⟨fun _ => (parseOf text).1, fun _ => false, fun _ => false, fun _ _ => []⟩

/-- The nth node of a kind in the text, with its ancestors. -/
def nodeIn (text : List Char) (k : SyntaxKind) (n : Nat) : List Elem :=
  (((nodeChains [] [] 0 (parseOf text).1).filter fun s => match s with
    | e :: _ => decide (e.kind = k)
    | [] => false)[n]?).getD []

/-- The nth path that the analysis looks at. -/
def pathIn (text : List Char) (n : Nat) : List Elem := ((descendantPaths (nodeIn text .MODULE 0))[n]?).getD []

theorem pathIn_mem {text : List Char} {n : Nat} (h : n < (descendantPaths (nodeIn text .MODULE 0)).length) :
    pathIn text n ∈ descendantPaths (nodeIn text .MODULE 0) := by
  unfold pathIn
  rw [List.getElem?_eq_getElem h]
  exact List.getElem_mem h

/-- Names mean imports only. -/
def onlyImports : Rest := ⟨fun _ => [], fun _ => [], fun _ => [], fun _ => [], fun _ => []⟩

/-- All imports name something of the namespace, in another file. -/
def allAre (ns : Ns) : Target := fun u => some (ns, 1, u.path)

def enumText : List Char := "module 0x1::m{use 0x1::n::E;fun f(){E::V}}".toList
def variantText : List Char := "module 0x1::m{use 0x1::n;fun f(){n::E::V}}".toList
def friendText : List Char := "module 0x1::m{use 0x2::c;friend c;}".toList
def specText : List Char := "module 0x1::m{fun f(){}spec module{use 0x1::n;}spec f{n::g();}}".toList

/-- The import of an enum that is used to name a variant is reported as unused; without it the name means nothing. -/
theorem C66_enum_fails : (parseOf enumText).2 = true ∧
    marked (oneFile enumText) 0 (nodeIn enumText .MODULE 0) = [.stmt 0 [6, 0]] ∧
    ∃ u site e, unusedUseItems (oneFile enumText) 0 (nodeIn enumText .MODULE 0) = some [u] ∧
      site ∈ descendantPaths (nodeIn enumText .MODULE 0) ∧
      baseEntries (oneFile enumText) onlyImports (allAre .ENUM) 0 site = [e] ∧ e.name = ['E'] ∧ e.ns = .ENUM ∧
      baseEntries (oneFile enumText) onlyImports ((allAre .ENUM).without u) 0 site = [] :=
  ⟨by decide +kernel, by decide +kernel, ⟨0, [2, 6, 0], ['E'], .Item, .Main⟩, pathIn enumText 0, ⟨['E'], .ENUM, 1, [2, 6, 0]⟩,
    by decide +kernel, pathIn_mem (by decide +kernel), by decide +kernel⟩

/-- So is the import of a module that is used to name a variant of one of its enums. -/
theorem C66_variant_fails : (parseOf variantText).2 = true ∧
    marked (oneFile variantText) 0 (nodeIn variantText .MODULE 0) = [.stmt 0 [6, 0]] ∧
    ∃ u site e, unusedUseItems (oneFile variantText) 0 (nodeIn variantText .MODULE 0) = some [u] ∧
      site ∈ descendantPaths (nodeIn variantText .MODULE 0) ∧
      baseEntries (oneFile variantText) onlyImports (allAre .MODULE) 0 site = [e] ∧ e.name = ['n'] ∧ e.ns = .MODULE ∧
      baseEntries (oneFile variantText) onlyImports ((allAre .MODULE).without u) 0 site = [] :=
  ⟨by decide +kernel, by decide +kernel, ⟨0, [2, 6, 0], ['n'], .Module, .Main⟩, pathIn variantText 0, ⟨['n'], .MODULE, 1, [2, 6, 0]⟩,
    by decide +kernel, pathIn_mem (by decide +kernel), by decide +kernel⟩

/-- So is the import of a module that is declared as a friend by its name. -/
theorem C66_friend_fails : (parseOf friendText).2 = true ∧
    marked (oneFile friendText) 0 (nodeIn friendText .MODULE 0) = [.stmt 0 [6, 0]] ∧
    ∃ u site e, unusedUseItems (oneFile friendText) 0 (nodeIn friendText .MODULE 0) = some [u] ∧
      site ∈ descendantPaths (nodeIn friendText .MODULE 0) ∧
      baseEntries (oneFile friendText) onlyImports (allAre .MODULE) 0 site = [e] ∧ e.name = ['c'] ∧ e.ns = .MODULE ∧
      baseEntries (oneFile friendText) onlyImports ((allAre .MODULE).without u) 0 site = [] :=
  ⟨by decide +kernel, by decide +kernel, ⟨0, [2, 6, 0], ['c'], .Module, .Main⟩, pathIn friendText 0, ⟨['c'], .MODULE, 1, [2, 6, 0]⟩,
    by decide +kernel, pathIn_mem (by decide +kernel), by decide +kernel⟩

/-- The scopes in other places of a module: its `spec module` blocks (resolve_scopes.rs:94–105). -/
def withSpecs (text : List Char) : Rest := { onlyImports with outside := fun _ => [(0, nodeIn text .BLOCK_EXPR 1)] }

/-- An import in a `spec module` block is in scope in all specifications of the module, but is reported as unused unless it is used
in its own block. -/
theorem C66_spec_module_fails : (parseOf specText).2 = true ∧
    marked (oneFile specText) 0 (nodeIn specText .BLOCK_EXPR 1) = [.stmt 0 [1, 3, 7, 0]] ∧
    ∃ u site e, unusedUseItems (oneFile specText) 0 (nodeIn specText .BLOCK_EXPR 1) = some [u] ∧
      site ∈ descendantPaths (nodeIn specText .MODULE 0) ∧
      baseEntries (oneFile specText) (withSpecs specText) (allAre .MODULE) 0 site = [e] ∧ e.name = ['n'] ∧ e.ns = .MODULE ∧
      baseEntries (oneFile specText) (withSpecs specText) ((allAre .MODULE).without u) 0 site = [] :=
  ⟨by decide +kernel, by decide +kernel, ⟨0, [2, 1, 3, 7, 0], ['n'], .Module, .Verify⟩, pathIn specText 0, ⟨['n'], .MODULE, 1, [2, 1, 3, 7, 0]⟩,
    by decide +kernel, pathIn_mem (by decide +kernel), by decide +kernel⟩

/-! ### Cases of the theorems -/

/-- Modules are imported as modules, functions as items. -/
def usualTarget : Target := fun u => some (if u.type = .Item then .FUNCTION else .MODULE, 1, u.path)

def plainText : List Char := "module 0x1::m{use 0x1::n;use 0x1::k::g;fun f(){g()}}".toList
def testText : List Char := "module 0x1::m{use 0x1::n::{g,h};#[test]fun f(){g()}fun k(){h()}}".toList

theorem usual_kinds (u : UseItem) : ∀ ns x, usualTarget u = some (ns, x) → (ns = .MODULE ↔ u.type ≠ .Item) := by
  intro ns x h
  simp only [usualTarget, Option.some.injEq, Prod.mk.injEq] at h
  rw [← h.1]
  cases u.type <;> simp

theorem usual_usual {text : List Char} {n : Nat} {u : UseItem} (h : Ns.MODULE ∉ pathNamespaces (pathIn text n).tail) :
    Usual usualTarget (pathIn text n) u := by
  refine ⟨fun _ => h, ?_⟩
  intro _ hu x hx
  simp [usualTarget, hu] at hx

/-- The imports of a text in which no block imports anything are as Move asks. -/
theorem legal_plain {text : List Char} {n : Nat} {u : UseItem}
    (inner : ∀ o ∈ (ownersOf (pathIn text n)).dropLast, ∀ e ∈ o.head?, e.kind ≠ .MODULE ∧ e.kind ≠ .MODULE_SPEC)
    (once : ∀ o ∈ ownersOf (pathIn text n), ∀ v ∈ combinedUseItems (oneFile text) 0 o, Competes u v → v = u)
    (none : ∀ o ∈ (ownersOf (pathIn text n)).dropLast, ∀ e ∈ o.head?, useItems (oneFile text) 0 e = []) :
    Legal (oneFile text) onlyImports usualTarget 0 (pathIn text n) u where
  inner := inner
  once := fun o ho _ v hv hc => once o ho v ((shared_iff _ _ _ _).2 hv) hc
  same := fun o ho e he v hv => by rw [none o ho e he] at hv; cases hv
  here := fun o ho => by cases ho
  kinds := usual_kinds u

/-- The import of `n` is reported, and the name `g` means the same without it. -/
example : (parseOf plainText).2 = true ∧ ∃ u, unusedUseItems (oneFile plainText) 0 (nodeIn plainText .MODULE 0) = some [u] ∧
    u.name = ['n'] ∧
    (baseEntries (oneFile plainText) onlyImports usualTarget 0 (pathIn plainText 0)).length = 1 ∧
    baseEntries (oneFile plainText) onlyImports (usualTarget.without u) 0 (pathIn plainText 0) =
      baseEntries (oneFile plainText) onlyImports usualTarget 0 (pathIn plainText 0) := by
  refine ⟨by decide +kernel, ⟨0, [2, 6, 0], ['n'], .Module, .Main⟩, by decide +kernel, rfl, by decide +kernel, ?_⟩
  have hcons : ∃ p anc, pathIn plainText 0 = p :: anc ∧ rootPath (p :: anc) = p :: anc := by
    cases h : pathIn plainText 0 with
    | nil => exact absurd h (by decide +kernel)
    | cons p anc =>
      refine ⟨p, anc, rfl, ?_⟩
      cases anc with
      | nil => rfl
      | cons q anc =>
        have hq : ((pathIn plainText 0)[1]?.map (isNode .PATH)) = some false := by decide +kernel
        rw [h] at hq
        simp only [List.getElem?_cons_succ, List.getElem?_cons_zero, Option.map_some, Option.some.injEq] at hq
        rw [rootPath, hq]
        rfl
  obtain ⟨p, anc, hpa, hroot⟩ := hcons
  rw [hpa]
  refine C66_unused_partial (oneFile plainText) onlyImports usualTarget 0 (nodeIn plainText .MODULE 0)
    [⟨0, [2, 6, 0], ['n'], .Module, .Main⟩] ⟨0, [2, 6, 0], ['n'], .Module, .Main⟩ (by decide +kernel) (by simp)
    (0, nodeIn plainText .MODULE 0) ?_ p anc ?_ (.one hroot) ?_ ?_ (.inl rfl)
  · exact .self
  · rw [← hpa]; exact pathIn_mem (by decide +kernel)
  · rw [← hpa]; exact usual_usual (by decide +kernel)
  · rw [← hpa]; exact legal_plain (by decide +kernel) (by decide +kernel) (by decide +kernel)

/-- `n` is reported as a whole statement, nothing of the other statement; in the group only the unused import is, and an import for
a test is reported as such. -/
example : marked (oneFile plainText) 0 (nodeIn plainText .MODULE 0) = [.stmt 0 [6, 0], .specks []] ∧
    marked (oneFile testText) 0 (nodeIn testText .MODULE 0) = [.specks []] ∧
    markedBroad (oneFile testText) 0 (nodeIn testText .MODULE 0) = [.specks [⟨0, [1, 2, 2, 6, 0], ['g'], .Item, .Main⟩]] ∧
    testOnlyUseItems (oneFile testText) 0 (nodeIn testText .MODULE 0) = some [⟨0, [1, 2, 2, 6, 0], ['g'], .Item, .Main⟩] := by
  decide +kernel

/-- A module without specifications in other places is apart. -/
example (w : Project) (file : Nat) (o : Elem) (anc : List Elem) (h : w.siblings file o = []) : Apart (withSiblings w file (o :: anc)) := by
  unfold withSiblings Apart
  simp [h]

def unfinishedText : List Char := "module 0x1::m{use 0x1::n;use ;}".toList

/-- No path mentions `n`, but a statement is unfinished. -/
example : (combinedStmts (oneFile unfinishedText) 0 (nodeIn unfinishedText .MODULE 0)).map (fun s => (s.items (oneFile unfinishedText)).isSome) =
    [true, false] ∧ marked (oneFile unfinishedText) 0 (nodeIn unfinishedText .MODULE 0) = [.specks []] := by decide +kernel

/-- No path mentions `n`: it is reported. -/
example : (∀ s ∈ combinedStmts (oneFile plainText) 0 (nodeIn plainText .MODULE 0), (s.items (oneFile plainText)).isSome) ∧
    (combinedUseItems (oneFile plainText) 0 (nodeIn plainText .MODULE 0)).map UseItem.name = [['n'], ['g']] ∧
    (descendantPaths (nodeIn plainText .MODULE 0)).map (fun s => (s.head?.bind refName, (rootPath s).head?.bind refName)) =
      [(some ['g'], some ['g'])] := by decide +kernel

end Verif.Ide
