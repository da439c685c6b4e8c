import Verif.Ide.CompleteProps
import Verif.Ide.ResolveExamples

/-! C83: examples, and where an item is offered with an import that does not make the name mean it. -/

namespace Verif.Ide.Complete
open Verif.Parser (Green)
open Verif.Syntax Verif.Nameres Verif.Nameres.Full
open Verif.Ide.Usages (parseOf)
open Verif.Ide (Walk twoFiles nodeIn)

/-- What a scope brings besides local names: type parameters, and in a module its items and the given imports. -/
def othersOf (extra : List Entry) (file : Nat) (s : Elem) : List Entry :=
  (match nodeChild s .TYPE_PARAM_LIST with
    | some l => (l.children.filter (isNode .TYPE_PARAM)).filterMap (itemEntry file)
    | none => []) ++
  if s.kind = .MODULE then extra ++ importableEntries file s else []

def scopeWalk (extra : List Entry) : Walk := fun file ns n site =>
  (walkScopes file (fun _ => []) (othersOf extra file) [] ns.contains (some n) site).map fun e => (e, none)

def scopeAll (extra : List Entry) : All := fun file ns site =>
  (walkScopes file (fun _ => []) (othersOf extra file) [] ns.contains none site).map fun e => (e, none)

/-- Two files of a package; the names in scope are those of the tree and the given imports. -/
def world (a b : Text) (extra : List Entry) : Names := twoFiles a b (scopeWalk extra)

theorem lists (a b : Text) (extra : List Entry) : Lists (world a b extra) (scopeAll extra) :=
  C83_walk (fun _ _ => []) (fun f => othersOf extra f) (fun _ _ => []) (fun _ _ => none) (fun _ _ _ _ => rfl) (fun _ _ _ => rfl)

def plain : Ctx := ⟨false, false, false, none, 0⟩

def aText : Text := "module 0x9::k{struct T{}fun f<T>(a:T){let a=a;a}#[test]fun g(){f();g()}fun h(){h()}}".toList
def bText : Text := "module 0x1::n{public fun h(){}fun i(){}}".toList

/-- The item `h` of the other module. -/
def otherH : Entry := ⟨['h'], .FUNCTION, 1, [6, 0]⟩

def ownH : Entry := ⟨['h'], .FUNCTION, 0, [9, 0]⟩

/-- The structure `T` of the module and the type parameter `T` of the function. -/
def structT : Entry := ⟨['T'], .TYPE, 0, [6, 0]⟩

def paramT : Entry := ⟨['T'], .TYPE, 0, [1, 3, 7, 0]⟩

/-- At the call `h()` of a function of the module, a function `h` of another module is offered with an import; the call means
the function of the module before it is added, and nothing when it is. -/
theorem C83_import_fails : (parseOf aText).2 = true ∧ (parseOf bText).2 = true ∧
    otherH ∈ imports (world aText bText []) (scopeAll []) 2 0 plain (nodeIn aText .PATH 6) ∧
    single (resolvePath (world aText bText []) 3 0 none (nodeIn aText .PATH 6)) = some ownH ∧
    single (resolvePath (world aText bText [otherH]) 3 0 none (nodeIn aText .PATH 6)) = none := by
  decide +kernel

/-- Where a type parameter has the name of a structure of the module, the structure is offered with an import of the module
itself, after which the name still means the type parameter. -/
theorem C83_own_fails : (parseOf aText).2 = true ∧
    structT ∈ imports (world aText bText []) (scopeAll []) 2 0 plain (nodeIn aText .PATH 0) ∧
    (placeAt (world aText bText []).toWorld structT).bind AutoImport.fqName = some ["0x9".toList, ['k'], ['T']] ∧
    (nodeIn aText .PATH 0).any (fun m => isNode .MODULE m && decide (nameText m = some ['k'])) = true ∧
    single (resolvePath (world aText bText []) 3 0 none (nodeIn aText .PATH 0)) = some paramT ∧
    single (resolvePath (world aText bText [structT]) 3 0 none (nodeIn aText .PATH 0)) = some paramT := by
  decide +kernel

/-! ### Cases of the theorems -/

def entryF : Entry := ⟨['f'], .FUNCTION, 0, [7, 0]⟩
def entryG : Entry := ⟨['g'], .FUNCTION, 0, [8, 0]⟩
def entryA : Entry := ⟨['a'], .NAME, 0, [2, 1, 5, 7, 0]⟩
def outerA : Entry := ⟨['a'], .NAME, 0, [0, 1, 4, 7, 0]⟩

/-- `C83_complete`: the function `f` is meant and offered; the test `g` is meant and held back. -/
example : (entryF, none) ∈ resolvePath (world aText bText []) 3 0 none (nodeIn aText .PATH 4) ∧
    entryF ∈ offers (world aText bText []) (scopeAll []) 2 0 plain (nodeIn aText .PATH 4) ∧
    (entryG, none) ∈ resolvePath (world aText bText []) 3 0 none (nodeIn aText .PATH 5) ∧
    entryG ∉ offers (world aText bText []) (scopeAll []) 2 0 plain (nodeIn aText .PATH 5) := by
  decide +kernel

/-- The kind of a name without qualifier, as a computation. -/
def plainNs : Option PathKind → Option (List Ns)
  | some (.unqualified ns) => some ns
  | _ => none

theorem plainNs_some {k : Option PathKind} {ns : List Ns} (h : plainNs k = some ns) : k = some (.unqualified ns) := by
  unfold plainNs at h
  split at h
  · cases h; rfl
  · cases h

theorem site_cons {site : List Elem} {n : Text} (h : site.head?.bind refName = some n) : ∃ p anc, site = p :: anc ∧ refName p = some n := by
  cases site with
  | nil => cases h
  | cons p anc => exact ⟨p, anc, rfl, h⟩

/-- The hypotheses of `C83_sound` hold for the call of `f` and for the use of the variable `a`; the parameter `a`, which the
variable hides, is not offered (`C83_scope`). -/
example : ∀ x ∈ [(4, entryF), (2, entryA)], ∃ p anc k, nodeIn aText .PATH x.1 = p :: anc ∧ refName p = some x.2.name ∧
    x.2 ∈ offers (world aText bText []) (scopeAll []) 2 0 plain (p :: anc) ∧
    pathKind (world aText bText []).named (p :: anc) = some k ∧ Asks k x.2.ns ∧
    (∀ i, placeAt (world aText bText []).toWorld x.2 = some i → Fits (world aText bText []) 2 0 none k i) ∧
    (x.2.ns = .FUNCTION ↔ isCallPath (p :: anc) = true) := by
  intro x hx
  have hn : (nodeIn aText .PATH x.1).head?.bind refName = some x.2.name := by revert x; decide +kernel
  obtain ⟨p, anc, h0, h1⟩ := site_cons hn
  have ho : x.2 ∈ offers (world aText bText []) (scopeAll []) 2 0 plain (nodeIn aText .PATH x.1) := by clear h0 h1 hn; revert x; decide +kernel
  have hk : (plainNs (pathKind (world aText bText []).named (nodeIn aText .PATH x.1))).any (fun l => l.contains x.2.ns) = true := by
    clear h0 h1 hn ho; revert x; decide +kernel
  have hc : x.2.ns = .FUNCTION ↔ isCallPath (nodeIn aText .PATH x.1) = true := by clear h0 h1 hn ho hk; revert x; decide +kernel
  have hi : (placeAt (world aText bText []).toWorld x.2).all (fun i => decide (i.elem.kind ≠ .VARIANT)) = true := by
    clear h0 h1 hn ho hk hc; revert x; decide +kernel
  rw [h0] at ho hk hc
  cases hp : plainNs (pathKind (world aText bText []).named (p :: anc)) with
  | none => rw [hp] at hk; cases hk
  | some l =>
    rw [hp] at hk
    refine ⟨p, anc, .unqualified l, h0, h1, ho, plainNs_some hp, List.contains_iff_mem.1 hk, ?_, hc⟩
    intro i h2 h3
    rw [h2] at hi
    exact absurd h3 (by simpa using hi)

example : entryA ∈ offers (world aText bText []) (scopeAll []) 2 0 plain (nodeIn aText .PATH 2) ∧
    outerA ∉ offers (world aText bText []) (scopeAll []) 2 0 plain (nodeIn aText .PATH 2) ∧
    plainNs (completionKind (world aText bText []).named (nodeIn aText .PATH 2)) = some nsAll := by
  decide +kernel

/-- The hypotheses of `C83_reach` hold for `h` of the other module and for `f`. -/
example : ∀ e ∈ [otherH, entryF], e ∈ AutoImport.candidates (world aText bText []) 0 ∧
    (plainNs (completionKind (world aText bText []).named (nodeIn aText .PATH 6))).any (fun l => l.contains e.ns) = true ∧
    (match nodeIn aText .PATH 6 with
      | p :: anc => isVisible (world aText bText []).toWorld e.ns none (placeAt (world aText bText []).toWorld e) ⟨0, p, anc⟩
      | [] => some .unknown) = none ∧
    ((placeAt (world aText bText []).toWorld e).bind AutoImport.fqName).isSome = true ∧
    (placeAt (world aText bText []).toWorld e).all (fun i => !(attrTexts i.elem.green).contains "test".toList) = true := by
  decide +kernel

/-- `C83_once` has something to say: items are offered both ways at `h`. -/
example : otherH ∈ imports (world aText bText []) (scopeAll []) 2 0 plain (nodeIn aText .PATH 6) ∧
    ownH ∈ offers (world aText bText []) (scopeAll []) 2 0 plain (nodeIn aText .PATH 6) := by
  decide +kernel

/-- The hypotheses of `C83_import_partial` hold for `i` of the other module in the scopes around the call of `h`. -/
example : (scopesAround 0 (fun _ => []) (othersOf [] 0) [] (nodeIn aText .PATH 6)).all
      (fun t => t.all fun x => !(decide (x.ns = .FUNCTION) && decide (x.name = ['i']))) = true ∧
    (scopesAround 0 (fun _ => []) (othersOf [] 0) [] (nodeIn aText .PATH 6)).length = 3 := by
  decide +kernel

end Verif.Ide.Complete
