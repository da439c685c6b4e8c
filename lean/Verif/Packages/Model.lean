import Mathlib.Data.List.Basic

/-! Model of the package loader, `crates/project-model/src/aptos_package/load_from_fs.rs`.

The file system is read through `Fs`: reading and parsing a manifest, the folder of a declared dependency
and looking for a manifest in a folder are functions, that is, the disk does not change during one load.
Hash maps are association lists in order of insertion; the iteration order of a real map is arbitrary, so
results are compared as sets. A loop takes fuel and yields `none` if it runs out; that it never does with
enough fuel is proved in `Verif.Packages.Props`. -/

namespace Verif.Packages

/-- `PackageKind` (aptos_package.rs 45-49). -/
inductive Kind where
  | localPkg
  | git
deriving DecidableEq, Repr

/-- A declared dependency, `MoveTomlDependency` (move_toml.rs): its name and whether it is a git
dependency. The location is left to `Fs.depRoot`. -/
structure Dep where
  name : String
  git : Bool
  location : String
deriving DecidableEq, Repr

/-- The parsed manifest, `MoveToml` (move_toml.rs 13-21), without named addresses and contents.
`deps` are `declared_dependencies` (95-97): dependencies, then dev-dependencies. -/
structure Toml where
  name : Option String
  deps : List Dep
deriving DecidableEq, Repr

/-- The file system. `P` are paths of manifests (`ManifestPath`), `R` paths of folders. -/
structure Fs (P R : Type) where
  /-- `read_manifest_from_fs` (285-290); `none` is an error. -/
  read : P → Option Toml
  /-- `MoveTomlDependency::dep_root` (move_toml.rs 196-201), for a dependency declared in a manifest. -/
  depRoot : P → Dep → Option R
  /-- `try_find_move_toml_at_root` (270-283). -/
  findToml : R → Option P

/-- `ManifestEntry` (19-27), without named addresses. -/
structure Entry (P : Type) where
  name : Option String
  kind : Kind
  declared : List (P × Kind)
  resolve : Bool
  missing : List String
deriving DecidableEq, Repr

/-- A map of manifests to entries or errors (`none`). -/
abbrev Map (P : Type) := List (P × Option (Entry P))

variable {P R : Type} [DecidableEq P]

/-- `HashMap::get`, `contains_key`. -/
def get? {V : Type} (m : List (P × V)) (p : P) : Option V := (m.find? (fun q => q.1 = p)).map (·.2)

/-- `HashMap::insert`: replaces the value of an existing key. -/
def insert {V : Type} (m : List (P × V)) (p : P) (v : V) : List (P × V) :=
  m.filter (fun q => q.1 ≠ p) ++ [(p, v)]

/-- The kind of a dependency (239-246): local dependencies of a git package are git packages. -/
def depKind (outer : Kind) (d : Dep) : Kind :=
  match d.git, outer with
  | true, _ => .git
  | false, .git => .git
  | false, .localPkg => .localPkg

/-- The loop over declared dependencies (222-249): the manifests found, and the names of dependencies
without a manifest. A dependency whose folder cannot be computed is skipped. -/
def declaredDeps (fs : Fs P R) (p : P) (outer : Kind) : List Dep → List (P × Kind) × List String
  | [] => ([], [])
  | d :: ds =>
    let (found, missing) := declaredDeps fs p outer ds
    match fs.depRoot p d with
    | none => (found, missing)
    | some r =>
      match fs.findToml r with
      | none => (found, d.name :: missing)
      | some q => ((q, depKind outer d) :: found, missing)

/-- One element of the queue of `collect_reachable_manifests`. -/
structure Item (P : Type) where
  path : P
  kind : Kind
  resolve : Bool
deriving DecidableEq, Repr

/-- What one manifest contributes (201-266): its entry (`none` for an unreadable manifest) and what is
added to the queue. -/
def visit (fs : Fs P R) (i : Item P) : Option (Entry P) × List (Item P) :=
  match fs.read i.path with
  | none => (none, [])
  | some toml =>
    if i.resolve then
      let (found, missing) := declaredDeps fs i.path i.kind toml.deps
      (some ⟨toml.name, i.kind, found, true, missing⟩, found.map (fun d => ⟨d.1, d.2, true⟩))
    else (some ⟨toml.name, i.kind, [], false, []⟩, [])

/-- The loop of `collect_reachable_manifests` (196-267). -/
def collectLoop (fs : Fs P R) : Nat → List (Item P) → Map P → Option (Map P)
  | _, [], res => some res
  | 0, _ :: _, _ => none
  | fuel + 1, i :: queue, res =>
    if (get? res i.path).isSome then collectLoop fs fuel queue res
    else
      let (entry, more) := visit fs i
      collectLoop fs fuel (queue ++ more) (insert res i.path entry)

/-- A workspace member, `DiscoveredManifest` (lib.rs 18-22). -/
structure Member (P : Type) where
  path : P
  resolve : Bool
deriving DecidableEq, Repr

/-- `collect_reachable_manifests` (186-268). -/
def collectReachable (fs : Fs P R) (fuel : Nat) (m : Member P) : Option (Map P) :=
  collectLoop fs fuel [⟨m.path, .localPkg, m.resolve⟩] []

/-- `HashMap::extend`: later entries replace earlier ones. -/
def extend {V : Type} (m : List (P × V)) (n : List (P × V)) : List (P × V) :=
  n.foldl (fun m q => insert m q.1 q.2) m

/-- The first loop of `load_aptos_packages` (82-86). -/
def loadManifests (fs : Fs P R) (fuel : Nat) : List (Member P) → Map P → Option (Map P)
  | [], acc => some acc
  | m :: ms, acc => (collectReachable fs fuel m).bind (fun r => loadManifests fs fuel ms (extend acc r))

/-- `valid_manifests` (88-94). -/
def validEntries (m : Map P) : List (P × Entry P) :=
  m.filterMap (fun q => q.2.map (fun e => (q.1, e)))

/-- The loop of `collect_deps_transitively` (148-183). `seen` are the visited manifests, `names` the visited
package names. -/
def depsLoop (valid : List (P × Entry P)) :
    Nat → List (P × Kind) → List P → List String → List (P × Kind) → Option (List (P × Kind))
  | _, [], _, _, res => some res
  | 0, _ :: _, _, _, _ => none
  | fuel + 1, d :: queue, seen, names, res =>
    if d.1 ∈ seen then depsLoop valid fuel queue seen names res
    else
      match get? valid d.1 with
      | none => depsLoop valid fuel queue (d.1 :: seen) names (res ++ [d])
      | some e =>
        match e.name with
        | none => depsLoop valid fuel (queue ++ e.declared) (d.1 :: seen) names (res ++ [d])
        | some n =>
          if n ∈ names then depsLoop valid fuel queue (d.1 :: seen) names res
          else depsLoop valid fuel (queue ++ e.declared) (d.1 :: seen) (n :: names) (res ++ [d])

/-- `collect_deps_transitively` (138-184). -/
def collectDeps (valid : List (P × Entry P)) (fuel : Nat) (declared : List (P × Kind)) :
    Option (List (P × Kind)) :=
  depsLoop valid fuel declared [] [] []

/-- `AptosPackage` (aptos_package.rs 51-60), as far as modelled. Dependencies are named by their manifest
here and by their folder there. -/
structure Package (P : Type) where
  name : Option String
  path : P
  kind : Kind
  deps : List (P × Kind)
  resolve : Bool
  missing : List String
deriving DecidableEq, Repr

/-- The second loop of `load_aptos_packages` (96-110) and `collect_package_from_manifest_entry` (117-136):
`none` in the list is a `ManifestParseError`. -/
def buildPackages (valid : List (P × Entry P)) (fuel : Nat) : Map P → Option (List (Option (Package P)))
  | [] => some []
  | (_, none) :: m => (buildPackages valid fuel m).map (none :: ·)
  | (p, some e) :: m =>
    (collectDeps valid fuel e.declared).bind fun deps =>
      (buildPackages valid fuel m).map (some ⟨e.name, p, e.kind, deps, e.resolve, e.missing⟩ :: ·)

/-- `load_aptos_packages` (80-115). -/
def loadPackages (fs : Fs P R) (fuel : Nat) (ms : List (Member P)) : Option (List (Option (Package P))) :=
  (loadManifests fs fuel ms []).bind fun m => buildPackages (validEntries m) fuel m

end Verif.Packages
