import Verif.Nameres.ResolveProps
import Verif.Ide.AutoImport

/-! What is offered when a path is completed (ide-completion/src/completions/reference/paths.rs), for a cursor at a path that is
already there. -/

namespace Verif.Ide.Complete
open Verif.Parser (Green)
open Verif.Syntax Verif.Nameres Verif.Nameres.Full

abbrev Text := List Char

/-! ### The kind of the path -/

/-- path_kind.rs:241–328 in completion; `qualified` says whether the path has a qualifier. -/
def completionNamespaces (qualified : Bool) (anc : List Elem) : List Ns :=
  match kindAt anc 0 with
  | some .PATH => if qualified then nsImportable ++ nsModules else nsEnumsModules
  | some .USE_SPECK => nsImportable
  | some .PATH_TYPE =>
    if kindAt anc 1 = some .IS_EXPR then nsContainer
    else if kindAt anc 3 = some .BEHAVIOR_PREDICATE_EXPR then nsCallable
    else nsItemType ++ nsModules
  | some .CALL_EXPR => nsCallable
  | some .PATH_EXPR =>
    if kindAt anc 1 = some .CALL_EXPR then nsCallable
    else if anc.any (isNode .ATTR_ITEM) then nsAll
    else if kindAt anc 1 = some .INDEX_EXPR then nsIndexable
    else if kindAt anc 1 = some .APPLY_LEMMA then [.LEMMA]
    else nsAll
  | some .SCHEMA_LIT => nsSchemas
  | some .STRUCT_LIT | some .STRUCT_PAT | some .TUPLE_STRUCT_PAT | some .PATH_PAT => nsContainer
  | some .FRIEND | some .MODULE_SPEC => nsModules
  | _ => nsNames

/-- path_kind.rs:92–239 with `is_completion` true. -/
def completionKind (named : Text → Bool) (site : List Elem) : Option PathKind :=
  match site with
  | [] => none
  | p :: anc =>
    match groupAround anc with
    | some (_ :: speck :: rest) =>
      if isNode .USE_SPECK speck then
        (nodeChild speck .PATH).map fun q => .qualified (q :: speck :: rest) (nsImportable ++ nsModules) .groupItem
      else none
    | some _ => none
    | none =>
      if anc.isEmpty then none
      else
        let ns := completionNamespaces (qualifierOf site).isSome anc
        match qualifierOf site with
        | none =>
          match pathAddress p with
          | some a => some (.valueAddress (Nameres.addressText a))
          | none =>
            match refName p with
            | none => none
            | some n =>
              if rootParentKind site = some .USE_SPECK && kindAt (rootPath site) 2 = some .USE_STMT then some (.namedAddress n)
              else if trailingColons site &&
                  (rootParentKind site = some .FRIEND || rootParentKind site = some .MODULE_SPEC) then some (.namedAddress n)
              else if trailingColons site && named n then some (.namedOrUnqualified n ns)
              else match shorthandField site with
                | some f => some (.shorthand f)
                | none => some (.unqualified ns)
        | some q =>
          match qualifierOf q with
          | none =>
            match q.head?.bind pathAddress with
            | some a => some (.qualified q nsModules (.module (.value (Nameres.addressText a))))
            | none =>
              match q.head?.bind refName with
              | none => none
              | some m =>
                if rootParentKind site = some .USE_SPECK || rootParentKind site = some .FRIEND ||
                    rootParentKind site = some .MODULE_SPEC then
                  some (.qualified q nsModules (.module (.named m)))
                else if named m then some (.qualified q ns (.moduleOrItem (.named m)))
                else if trailingColons site then some (.qualified q ns (.moduleOrItem (.named m)))
                else some (.qualified q (ns.filter (· ≠ .MODULE)) .itemOrVariant)
          | some _ =>
            if rootParentKind site = some .USE_SPECK then some (.qualified q (ns ++ nsModules) .fqItem)
            else some (.qualified q (ns.filter (· ≠ .MODULE)) .fqItem)

/-! ### The entries -/

/-- The walk through the scopes when no name is expected (name_resolution.rs:37–98). -/
abbrev All := Nat → List Ns → List Elem → List (Entry × Option ItemScope)

/-- path_resolution.rs:54–118 with no expected name; `one` resolves the qualifier. -/
def variantsAll (w : Names) (all : All) (file : Nat) (site : List Elem) (one : List Elem → Option Entry) :
    PathKind → List (Entry × Option ItemScope)
  | .namedAddress _ | .valueAddress _ => []
  | .shorthand f => all file nsNames site ++ (w.fields file f).map fun e => (e, none)
  | .namedOrUnqualified _ ns | .unqualified ns => ((selfEntry file ns site).map fun e => (e, none)) ++ all file ns site
  | .qualified _ _ (.module a) => (modulesAsEntries w file a).map fun e => (e, none)
  | .qualified q ns _ => ((qualifiedEntries w file site q (one q)).filter fun e => ns.contains e.ns).map fun e => (e, none)

/-- What is known about the place from the text with a name put in at the cursor (`PathCompletionCtx`, paths.rs:345–369, 452–529)
and the cursor: the path is in a `use`, in an `acquires`, in a specification; the group of the use around it. -/
structure Ctx where
  isUse : Bool
  isAcquires : Bool
  msl : Bool
  group : Option Elem
  cursor : Nat

/-- paths.rs:186–192: the names of the group away from the cursor. -/
def groupNames (c : Ctx) : List Text :=
  match c.group with
  | none => []
  | some g =>
    if c.isUse then
      ((g.children.filter (isNode .USE_SPECK)).filter fun s => !(decide (s.start ≤ c.cursor) && decide (c.cursor ≤ s.stop))).filterMap
        fun s => (nodeChild s .PATH).bind refName
    else []

/-- ide-db/src/defs.rs:27–35. -/
def builtinNames : List Text :=
  ["borrow_global".toList, "borrow_global_mut".toList, "move_to".toList, "move_from".toList, "freeze".toList]

/-- paths.rs:146–199: the entries that are left when the invisible and the unwanted are removed. -/
def entriesAt (w : Names) (all : All) (fuel file : Nat) (c : Ctx) (site : List Elem) : List (Entry × Option ItemScope) :=
  match site with
  | [] => []
  | p :: anc =>
    match completionKind w.named (p :: anc) with
    | none => []
    | some kind =>
      let entries := variantsAll w all file (p :: anc) (fun q => single (resolvePath w fuel file none q)) kind
      let visible := entries.filter fun x => (isVisible w.toWorld x.1.ns x.2 (placeAt w.toWorld x.1) ⟨file, p, anc⟩).isNone
      let others := visible.filter fun x => !(groupNames c).contains x.1.name
      if c.msl then others.filter fun x => !builtinNames.contains x.1.name else others

/-- The kinds that are shown as functions (paths.rs:281). -/
def funKinds : List SyntaxKind := [.FUN, .SPEC_FUN, .SPEC_INLINE_FUN, .LEMMA]

/-- paths.rs:263–316: whether there is an item for the entry. -/
def rendered (w : Names) (c : Ctx) (e : Entry) : Bool :=
  match placeAt w.toWorld e with
  | none => false
  | some p =>
    if c.isAcquires && !(decide (p.elem.kind = .STRUCT) || decide (p.elem.kind = .ENUM)) then false
    else !(funKinds.contains p.elem.kind && (attrTexts p.elem.green).contains "test".toList)

/-- paths.rs:201–206. -/
def offers (w : Names) (all : All) (fuel file : Nat) (c : Ctx) (site : List Elem) : List Entry :=
  ((entriesAt w all fuel file c site).map Prod.fst).filter (rendered w c)

/-- scope.rs:30–34. -/
def sameEntry (a b : Entry) : Bool := decide (a.name = b.name) && decide (a.file = b.file) && decide (a.path = b.path)

/-- paths.rs:221–261: the items that are offered together with an import. -/
def imports (w : Names) (all : All) (fuel file : Nat) (c : Ctx) (site : List Elem) : List Entry :=
  match site with
  | [] => []
  | p :: anc =>
    if c.isUse || c.isAcquires then []
    else match (completionKind w.named (p :: anc)).bind AutoImport.unqualifiedNs with
      | none => []
      | some ns =>
        (((AutoImport.candidates w file).filter fun e => ns.contains e.ns).filter fun e =>
          (isVisible w.toWorld e.ns none (placeAt w.toWorld e) ⟨file, p, anc⟩).isNone).filter fun e =>
          !((entriesAt w all fuel file c (p :: anc)).any fun x => sameEntry x.1 e) && rendered w c e &&
            ((placeAt w.toWorld e).bind AutoImport.fqName).isSome

/-! ### Specification -/

/-- The walk without a name is that with one for all names together, and more namespaces only add entries. -/
structure Lists (w : Names) (all : All) : Prop where
  named : ∀ file ns n site, w.walk file ns n site = (all file ns site).filter fun x => decide (x.1.name = n)
  narrow : ∀ file (ns wide : List Ns) site, (∀ k ∈ ns, k ∈ wide) → all file ns site = (all file wide site).filter fun x => ns.contains x.1.ns

/-- The item is left out on purpose: it is in the group already, it is a function on resources in a specification, it is neither
a structure nor an enum in `acquires`, or it is a test. -/
inductive Held (c : Ctx) (e : Entry) (i : Elem) : Prop where
  | group {g s q : Elem} (hu : c.isUse = true) (hg : c.group = some g) (hs : s ∈ g.children) (hk : Is .USE_SPECK s)
      (hc : c.cursor < s.start ∨ s.stop < c.cursor) (hq : nodeChild s .PATH = some q) (hn : refName q = some e.name)
  | resource (hm : c.msl = true)
      (hn : e.name = "borrow_global".toList ∨ e.name = "borrow_global_mut".toList ∨ e.name = "move_to".toList ∨
        e.name = "move_from".toList ∨ e.name = "freeze".toList)
  | acquires (ha : c.isAcquires = true) (hs : i.kind ≠ .STRUCT) (he : i.kind ≠ .ENUM)
  | test (hk : i.kind = .FUN ∨ i.kind = .SPEC_FUN ∨ i.kind = .SPEC_INLINE_FUN ∨ i.kind = .LEMMA) (ht : HasAttr i.green "test")

/-- The namespace is one that the path asks for. -/
def Asks (k : PathKind) (ns : Ns) : Prop :=
  match k with
  | .namedAddress _ | .valueAddress _ => False
  | .shorthand _ => True
  | .namedOrUnqualified _ l | .unqualified l => ns ∈ l
  | .qualified _ _ (.module _) => True
  | .qualified _ l _ => ns ∈ l

/-! ### The walk -/

theorem walkLists_filter (P Q : Ns × Text → Bool) (allowed wide : Ns → Bool) (n m : Option Text)
    (hP : ∀ e : Entry, P (e.ns, e.name) = ((match n with | some n => decide (n = e.name) | none => true) && allowed e.ns))
    (hQ : ∀ e : Entry, Q (e.ns, e.name) = ((match m with | some n => decide (n = e.name) | none => true) && wide e.ns))
    (hPQ : ∀ x, P x = true → Q x = true) (scopes : List (List Entry)) :
    ∀ seen seen' : List (Ns × Text), (∀ x, P x = true → (x ∈ seen ↔ x ∈ seen')) →
      walkLists allowed n seen scopes = (walkLists wide m seen' scopes).filter fun e => P (e.ns, e.name) := by
  have hnew : ∀ (es : List Entry) (seen seen' : List (Ns × Text)), (∀ x, P x = true → (x ∈ seen ↔ x ∈ seen')) →
      newEntries allowed n seen es = (newEntries wide m seen' es).filter fun e => P (e.ns, e.name) := by
    intro es seen seen' h
    unfold newEntries
    rw [List.filter_filter]
    apply List.filter_congr
    intro e _
    have h1 := hP e
    have h1' := hQ e
    have hs : P (e.ns, e.name) = true → Q (e.ns, e.name) = true := hPQ _
    cases hp : P (e.ns, e.name) with
    | false =>
      rw [hp] at h1
      rw [Bool.false_and]
      cases n <;> (dsimp only at h1 ⊢; rw [← h1]; rfl)
    | true =>
      rw [hp] at h1
      rw [hs hp] at h1'
      have h2 : seen.contains (e.ns, e.name) = seen'.contains (e.ns, e.name) := by
        rw [Bool.eq_iff_iff, List.contains_iff_mem, List.contains_iff_mem]
        exact h _ hp
      rw [h2, Bool.true_and]
      cases n <;> cases m <;> (dsimp only at h1 h1' ⊢; rw [← h1, ← h1'])
  induction scopes with
  | nil => intro _ _ _; rfl
  | cons es rest ih =>
    intro seen seen' h
    rw [walkLists, walkLists, List.filter_append, ← hnew es seen seen' h]
    congr 1
    apply ih
    intro x hx
    rw [List.mem_append, List.mem_append, h x hx, hnew es seen seen' h]
    apply or_congr _ Iff.rfl
    rw [List.mem_map, List.mem_map]
    constructor
    · rintro ⟨a, ha, rfl⟩
      exact ⟨a, (List.mem_filter.1 ha).1, rfl⟩
    · rintro ⟨a, ha, rfl⟩
      exact ⟨a, List.mem_filter.2 ⟨ha, hx⟩, rfl⟩

end Verif.Ide.Complete
