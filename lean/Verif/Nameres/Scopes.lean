import Verif.Syntax.Tokens

/-! Names in scope: the bindings of a block (lang/src/nameres/blocks.rs), of the other local scopes
(lang/src/nameres/scope_entries_owner.rs) and the walk through the scopes (lang/src/nameres/name_resolution.rs). -/

namespace Verif.Nameres
open Verif.Parser (Green)
open Verif.Syntax

/-- lang/src/nameres/namespaces.rs:14–24. -/
inductive Ns where
  | NAME | FUNCTION | TYPE | TUPLE_STRUCT | ENUM | ENUM_VARIANT | SCHEMA | MODULE | LEMMA
  deriving DecidableEq, Repr

/-- lang/src/nameres/scope.rs:22–28, without the scope adjustment; `file` and `path` stand for the location of the node. -/
structure Entry where
  name : List Char
  ns : Ns
  file : Nat
  path : List Nat
  deriving DecidableEq, Repr

/-- `AnyMslOnly` (syntax/src/ast/generated/nodes.rs:9881–9893). -/
def mslOnlyKinds : List SyntaxKind :=
  [.ITEM_SPEC, .LEMMA, .MODULE_SPEC, .SCHEMA, .SCHEMA_FIELD, .SPEC_BLOCK_EXPR, .SPEC_FUN, .SPEC_INLINE_FUN]

/-- syntax/src/ast/node_ext/syntax_element.rs:173–183, of a node and its ancestors. -/
def isMslContext : List Elem → Bool
  | [] => false
  | e :: es =>
    if [SyntaxKind.MODULE, .FUN, .STRUCT, .ENUM].contains e.kind then false
    else if mslOnlyKinds.contains e.kind then true
    else isMslContext es

/-- The patterns (generated/nodes.rs:8653–8668). -/
def patKinds : List SyntaxKind :=
  [.IDENT_PAT, .LITERAL_PAT, .PAREN_PAT, .PATH_PAT, .RANGE_PAT, .REST_PAT, .STRUCT_PAT, .TUPLE_PAT, .TUPLE_STRUCT_PAT, .UNIT_PAT,
    .WILDCARD_PAT]

/-- The statements (generated/nodes.rs:9124–9146). -/
def stmtKinds : List SyntaxKind :=
  [.ABORTS_IF_STMT, .ABORTS_WITH_STMT, .APPLY_LEMMA, .APPLY_SCHEMA, .EXPR_STMT, .FORALL_APPLY_LEMMA, .AXIOM_STMT, .INVARIANT_STMT,
    .GLOBAL_VARIABLE_DECL, .INCLUDE_SCHEMA, .LEMMA, .LET_STMT, .POST_STMT, .PRAGMA_STMT, .SCHEMA_FIELD, .SPEC_INLINE_FUN,
    .SPEC_PREDICATE_STMT, .UPDATE_STMT]

/-- `support::child` for an enum of kinds. -/
def childOf (e : Elem) (kinds : List SyntaxKind) : Option Elem :=
  e.children.find? fun c => !c.green.isTok && kinds.contains c.kind

/-- The name of an identifier pattern, its `NAME` child; `ident_token()` (generated/nodes.rs:1235) is there whenever that is. -/
def bindingName (e : Elem) : Option (List Char) :=
  (nodeChild e .NAME).map fun n => ((tokenChild n .IDENT).map fun t => t.green.text).getD []

/-- `to_entry` of a binding (scope.rs:66–79; namespaces.rs:96). -/
def bindingEntry (file : Nat) (e : Elem) : Option Entry := (bindingName e).map fun n => ⟨n, .NAME, file, e.path⟩

/-- syntax/src/ast/node_ext/pat.rs:11–13 with `to_entries`. -/
def patEntries (file : Nat) (pat : Option Elem) : List Entry :=
  match pat with
  | none => []
  | some p => (p.descendants.filter fun d => decide (d.kind = .IDENT_PAT)).filterMap (bindingEntry file)

/-- syntax/src/ast/node_ext/let_stmt.rs:12–14, of the statement and its ancestors. -/
def isPost : List Elem → Bool
  | [] => false
  | l :: anc => (tokenChild l .POST_KW).isSome || anc.any (isNode .POST_STMT)

/-- blocks.rs:91–95, with the bindings. -/
structure LetInfo where
  stmt : Elem
  post : Bool
  bindings : List Entry

/-- blocks.rs:77–87 with syntax/src/ast/traits.rs:42–46: the plain statements, then those after `post`. -/
def letStmts (file : Nat) (block : Elem) (anc : List Elem) : List LetInfo :=
  ((block.children.filter (isNode .LET_STMT)).map fun l =>
      ⟨l, isPost (l :: block :: anc), patEntries file (childOf l patKinds)⟩) ++
    (block.children.filter (isNode .POST_STMT)).filterMap fun p =>
      match childOf p stmtKinds with
      | some l => if l.kind = .LET_STMT then some ⟨l, isPost (l :: p :: block :: anc), patEntries file (childOf l patKinds)⟩ else none
      | none => none

/-- blocks.rs:97–101. -/
def LetInfo.before (l : LetInfo) (offset : Nat) : Bool := decide (l.stmt.stop ≤ offset)

/-- `unique_by(|e| e.name.clone())`: the first entry of every name. -/
def uniqueByName : List (List Char) → List Entry → List Entry
  | _, [] => []
  | seen, e :: es => if seen.contains e.name then uniqueByName seen es else e :: uniqueByName (e.name :: seen) es

/-- blocks.rs:17–55: the block with its ancestors, and the place with its ancestors. `inlines` are the entries of
`block_inline_functions`. -/
def entriesInBlock (file : Nat) (inlines : List Entry) (block : Elem) (anc : List Elem) (site : List Elem) : List Entry :=
  let offset := headStart site
  let msl := isMslContext (block :: anc)
  let current := site.dropWhile fun e => !isNode .LET_STMT e
  let visible : LetInfo → Bool := fun l =>
    if !msl then l.before offset
    else if !current.isEmpty then (!l.post || isPost current) && l.before offset
    else true
  (if msl then inlines else []) ++
    uniqueByName [] (((letStmts file block anc).filter visible).reverse.flatMap LetInfo.bindings)

/-! ### Specification of a block -/

/-- The first binding of the name in a list. -/
def FirstNamed (es : List Entry) (e : Entry) : Prop :=
  ∃ a b, es = a ++ e :: b ∧ ∀ x ∈ a, x.name ≠ e.name

theorem mem_uniqueByName (seen : List (List Char)) (es : List Entry) (e : Entry) :
    e ∈ uniqueByName seen es ↔ e.name ∉ seen ∧ FirstNamed es e := by
  induction es generalizing seen with
  | nil => simp [uniqueByName, FirstNamed]
  | cons x es ih =>
    have step : FirstNamed (x :: es) e ↔ x = e ∨ (x.name ≠ e.name ∧ FirstNamed es e) := by
      constructor
      · rintro ⟨a, b, h1, h2⟩
        cases a with
        | nil =>
          simp only [List.nil_append, List.cons.injEq] at h1
          exact .inl h1.1
        | cons y ys =>
          simp only [List.cons_append, List.cons.injEq] at h1
          obtain ⟨rfl, rfl⟩ := h1
          exact .inr ⟨h2 x (by simp), ys, b, rfl, fun z hz => h2 z (by simp [hz])⟩
      · rintro (rfl | ⟨h1, a, b, rfl, h2⟩)
        · exact ⟨[], es, rfl, by simp⟩
        · refine ⟨x :: a, b, rfl, ?_⟩
          intro z hz
          rcases List.mem_cons.1 hz with rfl | hz
          · exact h1
          · exact h2 z hz
    rw [step, uniqueByName]
    by_cases hs : seen.contains x.name
    · rw [if_pos hs, ih]
      have hs' : x.name ∈ seen := by simpa using hs
      constructor
      · rintro ⟨h1, h2⟩
        exact ⟨h1, .inr ⟨fun h => h1 (h ▸ hs'), h2⟩⟩
      · rintro ⟨h1, (rfl | ⟨h2, h3⟩)⟩
        · exact absurd hs' h1
        · exact ⟨h1, h3⟩
    · rw [if_neg hs, List.mem_cons, ih]
      have hs' : x.name ∉ seen := by simpa using hs
      constructor
      · rintro (rfl | ⟨h1, h2⟩)
        · exact ⟨hs', .inl rfl⟩
        · simp only [List.mem_cons, not_or] at h1
          exact ⟨h1.2, .inr ⟨Ne.symm h1.1, h2⟩⟩
      · rintro ⟨h1, (rfl | ⟨h2, h3⟩)⟩
        · exact .inl rfl
        · refine .inr ⟨?_, h3⟩
          simp only [List.mem_cons, not_or]
          exact ⟨Ne.symm h2, h1⟩

/-- `l` is the last of the statements that binds the name. -/
def LastBinding (ls : List LetInfo) (l : LetInfo) (e : Entry) : Prop :=
  ∃ a b, ls = a ++ l :: b ∧ FirstNamed l.bindings e ∧ ∀ m ∈ b, ∀ x ∈ m.bindings, x.name ≠ e.name

theorem firstNamed_append (a b : List Entry) (e : Entry) :
    FirstNamed (a ++ b) e ↔ FirstNamed a e ∨ ((∀ x ∈ a, x.name ≠ e.name) ∧ FirstNamed b e) := by
  constructor
  · rintro ⟨p, q, h, hp⟩
    rcases List.append_eq_append_iff.1 h with ⟨c, rfl, hb⟩ | ⟨c, rfl, hc⟩
    · exact .inr ⟨fun x hx => hp x (by simp [hx]), c, q, hb, fun x hx => hp x (by simp [hx])⟩
    · cases c with
      | nil =>
        simp only [List.append_nil, List.nil_append] at hc ⊢
        exact .inr ⟨hp, [], q, hc.symm, by simp⟩
      | cons y ys =>
        simp only [List.cons_append, List.cons.injEq] at hc
        obtain ⟨rfl, rfl⟩ := hc
        exact .inl ⟨p, ys, rfl, hp⟩
  · rintro (⟨p, q, rfl, hp⟩ | ⟨ha, p, q, rfl, hp⟩)
    · exact ⟨p, q ++ b, by simp, hp⟩
    · refine ⟨a ++ p, q, by simp, ?_⟩
      intro x hx
      rcases List.mem_append.1 hx with hx | hx
      · exact ha x hx
      · exact hp x hx

theorem firstNamed_nil (e : Entry) : ¬ FirstNamed [] e := by
  rintro ⟨a, b, h, -⟩
  cases a <;> cases h

theorem firstNamed_reverse (ls : List LetInfo) (e : Entry) :
    FirstNamed (ls.reverse.flatMap LetInfo.bindings) e ↔ ∃ l, LastBinding ls l e := by
  induction ls with
  | nil =>
    refine ⟨fun h => absurd h (firstNamed_nil e), ?_⟩
    rintro ⟨l, a, b, h, -⟩
    cases a <;> cases h
  | cons x ls ih =>
    rw [List.reverse_cons, List.flatMap_append, firstNamed_append, ih, List.flatMap_singleton]
    constructor
    · rintro (⟨l, a, b, rfl, h1, h2⟩ | ⟨h1, h2⟩)
      · exact ⟨l, x :: a, b, rfl, h1, h2⟩
      · refine ⟨x, [], ls, rfl, h2, ?_⟩
        intro m hm y hy
        exact h1 y (List.mem_flatMap.2 ⟨m, by simpa using hm, hy⟩)
    · rintro ⟨l, a, b, h, h1, h2⟩
      cases a with
      | nil =>
        simp only [List.nil_append, List.cons.injEq] at h
        obtain ⟨rfl, rfl⟩ := h
        refine .inr ⟨?_, h1⟩
        intro y hy
        obtain ⟨m, hm, hy⟩ := List.mem_flatMap.1 hy
        exact h2 m (by simpa using hm) y hy
      | cons z zs =>
        simp only [List.cons_append, List.cons.injEq] at h
        obtain ⟨rfl, rfl⟩ := h
        exact .inl ⟨l, zs, b, rfl, h1, h2⟩

/-- The entries of a Move block are exactly the bindings of the statements that end before the place, each name with its last
such statement. -/
theorem C43_latest (file : Nat) (inlines : List Entry) (block : Elem) (anc site : List Elem) (e : Entry)
    (hm : isMslContext (block :: anc) = false) :
    e ∈ entriesInBlock file inlines block anc site ↔
      ∃ l, LastBinding ((letStmts file block anc).filter fun l => decide (l.stmt.stop ≤ headStart site)) l e := by
  unfold entriesInBlock
  simp only [hm]
  rw [← firstNamed_reverse]
  simp [mem_uniqueByName, LetInfo.before]

/-- A name has one entry in a Move block. -/
theorem C43_single (file : Nat) (inlines : List Entry) (block : Elem) (anc site : List Elem)
    (hm : isMslContext (block :: anc) = false) : ((entriesInBlock file inlines block anc site).map Entry.name).Nodup := by
  have key : ∀ seen es, ((uniqueByName seen es).map Entry.name).Nodup := by
    intro seen es
    induction es generalizing seen with
    | nil => exact .nil
    | cons x es ih =>
      rw [uniqueByName]
      split
      · exact ih seen
      · rw [List.map_cons, List.nodup_cons]
        refine ⟨?_, ih _⟩
        intro h
        obtain ⟨y, hy, hxy⟩ := List.mem_map.1 h
        have := ((mem_uniqueByName _ _ _).1 hy).1
        rw [hxy] at this
        simp at this
  unfold entriesInBlock
  simp only [hm]
  exact key _ _

/-- In a block without `post` the statements are taken in the order of the text. -/
theorem C43_order (file : Nat) (block : Elem) (anc : List Elem) (hp : ∀ c ∈ block.children, isNode .POST_STMT c = false) :
    (letStmts file block anc).map LetInfo.stmt = block.children.filter (isNode .LET_STMT) ∧
    (letStmts file block anc).Pairwise fun a b => a.stmt.stop ≤ b.stmt.start := by
  have h : block.children.filter (isNode .POST_STMT) = [] := by
    rw [List.filter_eq_nil_iff]
    intro c hc
    simp [hp c hc]
  unfold letStmts
  rw [h]
  simp only [List.filterMap_nil, List.append_nil, List.map_map]
  refine ⟨by simp [Function.comp_def], ?_⟩
  rw [List.pairwise_map]
  exact block.children_sorted.filter _

/-- Nothing that begins at or after the place, and not the statement around the place, is visible in a Move block. -/
theorem C43_not_later (file : Nat) (inlines : List Entry) (block : Elem) (anc site : List Elem) (e : Entry)
    (hm : isMslContext (block :: anc) = false) (he : e ∈ entriesInBlock file inlines block anc site) :
    ∃ l ∈ letStmts file block anc, e ∈ l.bindings ∧ l.stmt.stop ≤ headStart site := by
  obtain ⟨l, a, b, h1, ⟨p, q, h2, -⟩, -⟩ := (C43_latest file inlines block anc site e hm).1 he
  have : l ∈ (letStmts file block anc).filter fun l => decide (l.stmt.stop ≤ headStart site) := by rw [h1]; simp
  rw [List.mem_filter] at this
  exact ⟨l, this.1, by rw [h2]; simp, by simpa using this.2⟩

/-! ### The walk through the scopes -/

/-- resolve_scopes.rs:11–40. -/
def resolveScopeKinds : List SyntaxKind :=
  [.MODULE, .MODULE_SPEC, .SCRIPT, .ITEM_SPEC, .FUN, .SPEC_FUN, .SPEC_INLINE_FUN, .LAMBDA_EXPR, .SCHEMA, .FOR_EXPR, .FORALL_EXPR,
    .EXISTS_EXPR, .CHOOSE_EXPR, .AXIOM_STMT, .INVARIANT_STMT, .APPLY_SCHEMA, .MATCH_ARM, .BLOCK_EXPR, .GLOBAL_VARIABLE_DECL, .ENUM,
    .STRUCT, .SPEC_BLOCK_EXPR, .LEMMA, .FORALL_APPLY_LEMMA]

/-- resolve_scopes.rs:47–57: the scopes around a place, each with its ancestors. The scopes of other files that are added to
a module or a module specification (resolve_scopes.rs:59–81) are a parameter of `walkScopes`. -/
def resolveScopes : List Elem → List (List Elem)
  | [] => []
  | s :: anc => if resolveScopeKinds.contains s.kind then (s :: anc) :: resolveScopes anc else resolveScopes anc

/-- The local names of a scope (scope_entries_owner.rs:92–99, 105–111 and 137–142): parameters of functions and lambdas, the
index of a `for` and the pattern of a match arm. -/
def localEntries (file : Nat) (s : Elem) : List Entry :=
  if [SyntaxKind.FUN, .SPEC_FUN, .SPEC_INLINE_FUN, .LEMMA].contains s.kind then
    match nodeChild s .PARAM_LIST with
    | some l => ((l.children.filter (isNode .PARAM)).filterMap fun p => nodeChild p .IDENT_PAT).filterMap (bindingEntry file)
    | none => []
  else if s.kind = .LAMBDA_EXPR then
    match nodeChild s .LAMBDA_PARAM_LIST with
    | some l => ((l.children.filter (isNode .LAMBDA_PARAM)).filterMap fun p => nodeChild p .IDENT_PAT).filterMap (bindingEntry file)
    | none => []
  else if s.kind = .FOR_EXPR then
    match (nodeChild s .FOR_CONDITION).bind fun c => nodeChild c .IDENT_PAT with
    | some i => (bindingEntry file i).toList
    | none => []
  else if s.kind = .MATCH_ARM then patEntries file (childOf s patKinds)
  else []

/-- name_resolution.rs:50–56: the pattern of a match arm does not see its own bindings. -/
def skipArm (offset : Nat) (s : Elem) : Bool :=
  decide (s.kind = .MATCH_ARM) &&
    match childOf s patKinds with
    | some p => decide (p.start ≤ offset) && decide (offset < p.stop)
    | none => false

/-- name_resolution.rs:58–62, 73: all entries of a scope. `inlines` and `others` stand for the entries that are not local names
(inline functions of a specification block, imports, type parameters, items, builtins). -/
def scopeEntries (file : Nat) (inlines others : Elem → List Entry) (site : List Elem) : List Elem → List Entry
  | [] => []
  | s :: anc =>
    (if s.kind = .BLOCK_EXPR then entriesInBlock file (inlines s) s anc site else []) ++ (others s ++ localEntries file s)

/-- name_resolution.rs:74–95, for one scope: the entries that are new, with the names seen in the scopes before. -/
def newEntries (allowed : Ns → Bool) (expected : Option (List Char)) (seen : List (Ns × List Char)) (es : List Entry) : List Entry :=
  es.filter fun e =>
    (match expected with
      | some n => decide (n = e.name)
      | none => true) && allowed e.ns && !seen.contains (e.ns, e.name)

/-- name_resolution.rs:46–97. -/
def walkLists (allowed : Ns → Bool) (expected : Option (List Char)) : List (Ns × List Char) → List (List Entry) → List Entry
  | _, [] => []
  | seen, es :: rest =>
    newEntries allowed expected seen es ++
      walkLists allowed expected ((newEntries allowed expected seen es).map (fun e => (e.ns, e.name)) ++ seen) rest

/-- name_resolution.rs:37–56: the scopes that are asked for names. -/
def scopesAt (site : List Elem) : List (List Elem) :=
  (resolveScopes site.tail).filter fun s => match s with
    | s :: _ => !skipArm (headStart site) s
    | [] => true

/-- name_resolution.rs:37–98. `site` is the place with its ancestors; `outside` are the entries of the scopes in other places. -/
def walkScopes (file : Nat) (inlines others : Elem → List Entry) (outside : List (List Entry)) (allowed : Ns → Bool)
    (expected : Option (List Char)) (site : List Elem) : List Entry :=
  walkLists allowed expected [] ((scopesAt site).map (scopeEntries file inlines others site) ++ outside)

/-! ### Specification of the walk -/

/-- The entry is wanted: its name and namespace are. -/
def Wanted (allowed : Ns → Bool) (expected : Option (List Char)) (e : Entry) : Prop :=
  (∀ n, expected = some n → n = e.name) ∧ allowed e.ns = true

/-- The entry is in one of the scopes, and no scope further in has one of the same namespace and name. -/
def Innermost (scopes : List (List Entry)) (e : Entry) : Prop :=
  ∃ inner s outer, scopes = inner ++ s :: outer ∧ e ∈ s ∧ ∀ t ∈ inner, ∀ x ∈ t, ¬ (x.ns = e.ns ∧ x.name = e.name)

theorem mem_newEntries {allowed : Ns → Bool} {expected : Option (List Char)} {seen : List (Ns × List Char)} {es : List Entry}
    {e : Entry} : e ∈ newEntries allowed expected seen es ↔ e ∈ es ∧ Wanted allowed expected e ∧ (e.ns, e.name) ∉ seen := by
  unfold newEntries Wanted
  rw [List.mem_filter]
  cases expected with
  | none => simp
  | some n => simp

theorem mem_walkLists (allowed : Ns → Bool) (expected : Option (List Char)) (seen : List (Ns × List Char))
    (scopes : List (List Entry)) (e : Entry) :
    e ∈ walkLists allowed expected seen scopes ↔ Wanted allowed expected e ∧ (e.ns, e.name) ∉ seen ∧ Innermost scopes e := by
  induction scopes generalizing seen with
  | nil => simp [walkLists, Innermost]
  | cons s scopes ih =>
    have step : Innermost (s :: scopes) e ↔ e ∈ s ∨ ((∀ x ∈ s, ¬ (x.ns = e.ns ∧ x.name = e.name)) ∧ Innermost scopes e) := by
      constructor
      · rintro ⟨i, t, o, h1, h2, h3⟩
        cases i with
        | nil =>
          simp only [List.nil_append, List.cons.injEq] at h1
          exact .inl (h1.1 ▸ h2)
        | cons y ys =>
          simp only [List.cons_append, List.cons.injEq] at h1
          obtain ⟨rfl, rfl⟩ := h1
          exact .inr ⟨h3 s (by simp), ys, t, o, rfl, h2, fun t ht => h3 t (by simp [ht])⟩
      · rintro (h | ⟨h1, i, t, o, rfl, h2, h3⟩)
        · exact ⟨[], s, scopes, rfl, h, by simp⟩
        · refine ⟨s :: i, t, o, rfl, h2, ?_⟩
          intro u hu
          rcases List.mem_cons.1 hu with rfl | hu
          · exact h1
          · exact h3 u hu
    rw [walkLists, List.mem_append, ih, step, mem_newEntries]
    constructor
    · rintro (⟨h1, h2, h3⟩ | ⟨h1, h2, h3⟩)
      · exact ⟨h2, h3, .inl h1⟩
      · simp only [List.mem_append, not_or, List.mem_map, not_exists, not_and] at h2
        refine ⟨h1, h2.2, .inr ⟨?_, h3⟩⟩
        rintro x hx ⟨hx1, hx2⟩
        refine h2.1 x (mem_newEntries.2 ⟨hx, ?_, ?_⟩) (by rw [hx1, hx2])
        · exact ⟨fun n hn => by rw [hx2]; exact h1.1 n hn, by rw [hx1]; exact h1.2⟩
        · rw [hx1, hx2]; exact h2.2
    · rintro ⟨h1, h2, (h3 | ⟨h3, h4⟩)⟩
      · exact .inl ⟨h3, h1, h2⟩
      · refine .inr ⟨h1, ?_, h4⟩
        simp only [List.mem_append, not_or, List.mem_map, not_exists, not_and]
        refine ⟨?_, h2⟩
        intro x hx heq
        obtain ⟨hx1, hx2, hx3⟩ := mem_newEntries.1 hx
        simp only [Prod.mk.injEq] at heq
        exact h3 x hx1 heq

/-- The scopes as the code sees them, from the inside out. -/
def scopesAround (file : Nat) (inlines others : Elem → List Entry) (outside : List (List Entry)) (site : List Elem) :
    List (List Entry) :=
  (scopesAt site).map (scopeEntries file inlines others site) ++ outside

/-- A name is found in the innermost scope that has it, and everything that this scope has under the name is found. -/
theorem C59_innermost (file : Nat) (inlines others : Elem → List Entry) (outside : List (List Entry)) (allowed : Ns → Bool)
    (expected : Option (List Char)) (site : List Elem) (e : Entry) :
    e ∈ walkScopes file inlines others outside allowed expected site ↔
      Wanted allowed expected e ∧ Innermost (scopesAround file inlines others outside site) e := by
  unfold walkScopes
  rw [mem_walkLists]
  simp [scopesAround]

/-- The kinds of nodes that bring names into scope. -/
def OpensScope (e : Elem) : Prop :=
  match e.kind with
  | .MODULE | .MODULE_SPEC | .SCRIPT | .ITEM_SPEC | .SPEC_BLOCK_EXPR | .BLOCK_EXPR => True
  | .FUN | .SPEC_FUN | .SPEC_INLINE_FUN | .LEMMA | .LAMBDA_EXPR | .FOR_EXPR | .MATCH_ARM => True
  | .STRUCT | .ENUM | .SCHEMA | .GLOBAL_VARIABLE_DECL | .AXIOM_STMT | .INVARIANT_STMT | .APPLY_SCHEMA => True
  | .FORALL_EXPR | .EXISTS_EXPR | .CHOOSE_EXPR | .FORALL_APPLY_LEMMA => True
  | _ => False

theorem opensScope_iff (e : Elem) : e.kind ∈ resolveScopeKinds ↔ OpensScope e := by
  unfold OpensScope
  generalize e.kind = k
  cases k <;> decide +kernel

/-- The scopes are those nodes strictly around the place that open one, from the inside out. -/
theorem C59_scopes (anc : List Elem) (l : List Elem) :
    l ∈ resolveScopes anc ↔ ∃ inner s outer, anc = inner ++ s :: outer ∧ l = s :: outer ∧ OpensScope s := by
  induction anc with
  | nil => simp [resolveScopes]
  | cons x anc ih =>
    have step : (∃ inner s outer, x :: anc = inner ++ s :: outer ∧ l = s :: outer ∧ OpensScope s) ↔
        (l = x :: anc ∧ OpensScope x) ∨
          ∃ inner s outer, anc = inner ++ s :: outer ∧ l = s :: outer ∧ OpensScope s := by
      constructor
      · rintro ⟨i, s, o, h1, h2, h3⟩
        cases i with
        | nil =>
          simp only [List.nil_append, List.cons.injEq] at h1
          obtain ⟨rfl, rfl⟩ := h1
          exact .inl ⟨h2, h3⟩
        | cons y ys =>
          simp only [List.cons_append, List.cons.injEq] at h1
          obtain ⟨rfl, rfl⟩ := h1
          exact .inr ⟨ys, s, o, rfl, h2, h3⟩
      · rintro (⟨h1, h2⟩ | ⟨i, s, o, rfl, h2, h3⟩)
        · exact ⟨[], x, anc, rfl, h1, h2⟩
        · exact ⟨x :: i, s, o, rfl, h2, h3⟩
    rw [step, resolveScopes]
    by_cases h : resolveScopeKinds.contains x.kind
    · rw [if_pos h, List.mem_cons, ih]
      have : OpensScope x := (opensScope_iff x).1 (by simpa using h)
      simp [this]
    · rw [if_neg h, ih]
      have : ¬ OpensScope x := fun ho => h (by simpa using (opensScope_iff x).2 ho)
      simp [this]

/-- The place is in the pattern of a match arm. -/
def InPattern (s : Elem) (offset : Nat) : Prop :=
  s.kind = .MATCH_ARM ∧ ∃ before p after, s.children = before ++ p :: after ∧ p.green.isTok = false ∧ p.kind ∈ patKinds ∧
    (∀ c ∈ before, ¬ (c.green.isTok = false ∧ c.kind ∈ patKinds)) ∧ p.start ≤ offset ∧ offset < p.stop

/-- The scopes that are asked: those around the place, except a match arm in whose pattern the place is. -/
theorem C59_asked (site : List Elem) (l : List Elem) :
    l ∈ scopesAt site ↔ ∃ inner s outer, site.tail = inner ++ s :: outer ∧ l = s :: outer ∧ OpensScope s ∧
      ¬ InPattern s (headStart site) := by
  have hskip : ∀ s : Elem, skipArm (headStart site) s = true ↔ InPattern s (headStart site) := by
    intro s
    unfold skipArm InPattern
    rw [Bool.and_eq_true, decide_eq_true_iff]
    refine and_congr_right fun _ => ?_
    constructor
    · intro h
      cases hc : childOf s patKinds with
      | none => rw [hc] at h; cases h
      | some p =>
        rw [hc] at h
        simp only [Bool.and_eq_true, decide_eq_true_eq] at h
        obtain ⟨h1, as, bs, h2, h3⟩ := List.find?_eq_some_iff_append.1 hc
        simp only [Bool.and_eq_true, Bool.not_eq_true', List.contains_iff_mem] at h1
        refine ⟨as, p, bs, h2, h1.1, h1.2, ?_, h.1, h.2⟩
        intro c hc hk
        have := h3 c hc
        simp only [hk.1, Bool.not_false, Bool.true_and, Bool.not_eq_true'] at this
        have h4 : patKinds.contains c.kind = true := List.contains_iff_mem.2 hk.2
        rw [h4] at this
        cases this
    · rintro ⟨as, p, bs, h2, h3, h4, h5, h6, h7⟩
      have : childOf s patKinds = some p := by
        refine List.find?_eq_some_iff_append.2 ⟨?_, as, bs, h2, ?_⟩
        · simp only [h3, Bool.not_false, Bool.true_and]
          exact List.contains_iff_mem.2 h4
        · intro c hc
          have := h5 c hc
          cases hct : c.green.isTok with
          | true => rfl
          | false =>
            have : c.kind ∉ patKinds := fun h => this ⟨hct, h⟩
            simp only [Bool.not_false, Bool.true_and, Bool.not_eq_true']
            exact Bool.eq_false_iff.2 fun h => this (List.contains_iff_mem.1 h)
      rw [this]
      simp [h6, h7]
  unfold scopesAt
  rw [List.mem_filter, C59_scopes]
  constructor
  · rintro ⟨⟨i, s, o, h1, rfl, h3⟩, h4⟩
    refine ⟨i, s, o, h1, rfl, h3, fun h => ?_⟩
    have := (hskip s).2 h
    simp [this] at h4
  · rintro ⟨i, s, o, h1, rfl, h3, h4⟩
    refine ⟨⟨i, s, o, h1, rfl, h3⟩, ?_⟩
    have : skipArm (headStart site) s = false := Bool.eq_false_iff.2 fun h => h4 ((hskip s).1 h)
    simp [this]

/-- The binding `i` has the entry's name, in the namespace of values. -/
def Binding (file : Nat) (i : Elem) (e : Entry) : Prop :=
  e.ns = .NAME ∧ e.file = file ∧ e.path = i.path ∧ ∃ n, nodeChild i .NAME = some n ∧
    e.name = ((tokenChild n .IDENT).map fun t => t.green.text).getD []

/-- What a local scope brings: parameters of functions and lambdas, the index of a `for`, the pattern of a match arm. -/
inductive Brings (file : Nat) (s : Elem) : Entry → Prop where
  | param {l p i : Elem} {e : Entry} : s.kind = .FUN ∨ s.kind = .SPEC_FUN ∨ s.kind = .SPEC_INLINE_FUN ∨ s.kind = .LEMMA →
      nodeChild s .PARAM_LIST = some l → p ∈ l.children → isNode .PARAM p = true → nodeChild p .IDENT_PAT = some i →
      Binding file i e → Brings file s e
  | lambda {l p i : Elem} {e : Entry} : s.kind = .LAMBDA_EXPR → nodeChild s .LAMBDA_PARAM_LIST = some l → p ∈ l.children →
      isNode .LAMBDA_PARAM p = true → nodeChild p .IDENT_PAT = some i → Binding file i e → Brings file s e
  | index {c i : Elem} {e : Entry} : s.kind = .FOR_EXPR → nodeChild s .FOR_CONDITION = some c → nodeChild c .IDENT_PAT = some i →
      Binding file i e → Brings file s e
  | arm {p i : Elem} {e : Entry} : s.kind = .MATCH_ARM → childOf s patKinds = some p → i ∈ p.descendants → i.kind = .IDENT_PAT →
      Binding file i e → Brings file s e

theorem bindingEntry_iff (file : Nat) (i : Elem) (e : Entry) : bindingEntry file i = some e ↔ Binding file i e := by
  unfold bindingEntry bindingName Binding
  cases h : nodeChild i .NAME with
  | none => simp
  | some n =>
    cases e
    simp only [Option.map_some, Option.some.injEq, Entry.mk.injEq]
    constructor
    · rintro ⟨rfl, rfl, rfl, rfl⟩
      exact ⟨rfl, rfl, rfl, n, rfl, rfl⟩
    · rintro ⟨rfl, rfl, rfl, m, rfl, rfl⟩
      exact ⟨rfl, rfl, rfl, rfl⟩

/-- What a `let` statement binds: the identifiers of its pattern. -/
theorem C43_bindings (file : Nat) (block : Elem) (anc : List Elem) (l : LetInfo) (hl : l ∈ letStmts file block anc) (e : Entry) :
    l.stmt.kind = .LET_STMT ∧
      (e ∈ l.bindings ↔ ∃ p i, childOf l.stmt patKinds = some p ∧ i ∈ p.descendants ∧ i.kind = .IDENT_PAT ∧ Binding file i e) := by
  have key : ∀ x : Elem, e ∈ patEntries file (childOf x patKinds) ↔
      ∃ p i, childOf x patKinds = some p ∧ i ∈ p.descendants ∧ i.kind = .IDENT_PAT ∧ Binding file i e := by
    intro x
    cases h : childOf x patKinds with
    | none => simp [patEntries]
    | some p =>
      simp only [patEntries, List.mem_filterMap, List.mem_filter, decide_eq_true_eq, bindingEntry_iff]
      constructor
      · rintro ⟨i, ⟨h1, h2⟩, h3⟩
        exact ⟨p, i, rfl, h1, h2, h3⟩
      · rintro ⟨q, i, hq, h1, h2, h3⟩
        cases hq
        exact ⟨i, ⟨h1, h2⟩, h3⟩
  unfold letStmts at hl
  rcases List.mem_append.1 hl with hl | hl
  · simp only [List.mem_map, List.mem_filter] at hl
    obtain ⟨x, ⟨-, h2⟩, rfl⟩ := hl
    refine ⟨?_, key x⟩
    simp only [isNode, Bool.and_eq_true, decide_eq_true_eq] at h2
    exact h2.2
  · simp only [List.mem_filterMap] at hl
    obtain ⟨x, -, h2⟩ := hl
    split at h2
    · rename_i y hy
      split at h2
      · cases h2
        exact ⟨by assumption, key y⟩
      · cases h2
    · cases h2

/-- The local names of a scope are exactly those. -/
theorem C59_brings (file : Nat) (s : Elem) (e : Entry) : e ∈ localEntries file s ↔ Brings file s e := by
  have hf : [SyntaxKind.FUN, .SPEC_FUN, .SPEC_INLINE_FUN, .LEMMA].contains s.kind = true ↔
      (s.kind = .FUN ∨ s.kind = .SPEC_FUN ∨ s.kind = .SPEC_INLINE_FUN ∨ s.kind = .LEMMA) := by
    simp only [List.contains_iff_mem, List.mem_cons, List.not_mem_nil, or_false]
  unfold localEntries
  constructor
  · intro h
    split at h
    · rename_i hk
      split at h
      · rename_i l hl
        simp only [List.mem_filterMap, List.mem_filter] at h
        obtain ⟨i, ⟨p, ⟨h1, h2⟩, h3⟩, h4⟩ := h
        exact .param (hf.1 hk) hl h1 h2 h3 ((bindingEntry_iff _ _ _).1 h4)
      · cases h
    · split at h
      · rename_i hk
        split at h
        · rename_i l hl
          simp only [List.mem_filterMap, List.mem_filter] at h
          obtain ⟨i, ⟨p, ⟨h1, h2⟩, h3⟩, h4⟩ := h
          exact .lambda hk hl h1 h2 h3 ((bindingEntry_iff _ _ _).1 h4)
        · cases h
      · split at h
        · rename_i hk
          split at h
          · rename_i i hi
            obtain ⟨c, h1, h2⟩ := Option.bind_eq_some_iff.1 hi
            exact .index hk h1 h2 ((bindingEntry_iff _ _ _).1 (by simpa using h))
          · cases h
        · split at h
          · rename_i hk
            unfold patEntries at h
            split at h
            · cases h
            · rename_i p hp
              simp only [List.mem_filterMap, List.mem_filter, decide_eq_true_eq] at h
              obtain ⟨i, ⟨h1, h2⟩, h3⟩ := h
              exact .arm hk hp h1 h2 ((bindingEntry_iff _ _ _).1 h3)
          · cases h
  · rintro (⟨hk, hl, h1, h2, h3, h4⟩ | ⟨hk, hl, h1, h2, h3, h4⟩ | ⟨hk, h1, h2, h4⟩ | ⟨hk, hp, h1, h2, h4⟩)
    · rw [if_pos (hf.2 hk), hl]
      simp only [List.mem_filterMap, List.mem_filter]
      exact ⟨_, ⟨_, ⟨h1, h2⟩, h3⟩, (bindingEntry_iff _ _ _).2 h4⟩
    · rw [if_neg (by rw [hk]; decide), if_pos hk, hl]
      simp only [List.mem_filterMap, List.mem_filter]
      exact ⟨_, ⟨_, ⟨h1, h2⟩, h3⟩, (bindingEntry_iff _ _ _).2 h4⟩
    · rw [if_neg (by rw [hk]; decide), if_neg (by rw [hk]; decide), if_pos hk, h1, Option.bind_some, h2]
      simp [(bindingEntry_iff _ _ _).2 h4]
    · rw [if_neg (by rw [hk]; decide), if_neg (by rw [hk]; decide), if_neg (by rw [hk]; decide), if_pos hk, hp]
      simp only [patEntries, List.mem_filterMap, List.mem_filter, decide_eq_true_eq]
      exact ⟨_, ⟨h1, h2⟩, (bindingEntry_iff _ _ _).2 h4⟩

theorem eq_of_name {l : List Entry} (h : (l.map Entry.name).Nodup) {x y : Entry} (hx : x ∈ l) (hy : y ∈ l)
    (he : x.name = y.name) : x = y := by
  induction l with
  | nil => cases hx
  | cons z l ih =>
    rw [List.map_cons, List.nodup_cons] at h
    rcases List.mem_cons.1 hx with hx1 | hx1
    · rcases List.mem_cons.1 hy with hy1 | hy1
      · rw [hx1, hy1]
      · exact absurd (List.mem_map.2 ⟨y, hy1, by rw [← hx1, he]⟩) h.1
    · rcases List.mem_cons.1 hy with hy1 | hy1
      · exact absurd (List.mem_map.2 ⟨x, hx1, by rw [← hy1, he]⟩) h.1
      · exact ih h.2 hx1 hy1

/-- A name bound by a statement of the innermost block, which nothing further in binds, refers to the last statement before
the place that binds it. -/
theorem C59_local (file : Nat) (inlines others : Elem → List Entry) (outside : List (List Entry)) (allowed : Ns → Bool)
    (start : Elem) (inner : List Elem) (block : Elem) (anc : List Elem) (l : LetInfo) (e : Entry)
    (hk : block.kind = .BLOCK_EXPR) (hm : isMslContext (block :: anc) = false)
    (hin : ∀ p ∈ inner, ¬ OpensScope p)
    (hl : LastBinding ((letStmts file block anc).filter fun l => decide (l.stmt.stop ≤ start.start)) l e)
    (ha : allowed e.ns = true) (hot : ∀ x ∈ others block, x.name ≠ e.name) (x : Entry) (hx : x.ns = e.ns) :
    x ∈ walkScopes file inlines others outside allowed (some e.name) (start :: inner ++ block :: anc) ↔ x = e := by
  have hscopes : resolveScopes (inner ++ block :: anc) = (block :: anc) :: resolveScopes anc := by
    induction inner with
    | nil =>
      rw [List.nil_append, resolveScopes, hk, if_pos (by decide)]
    | cons p ps ih =>
      have hp : ¬ resolveScopeKinds.contains p.kind = true := fun h => hin p (by simp) ((opensScope_iff p).1 (by simpa using h))
      rw [List.cons_append, resolveScopes, if_neg hp]
      exact ih fun q hq => hin q (by simp [hq])
  have hskip : skipArm start.start block = false := by simp [skipArm, hk]
  have hse : scopeEntries file inlines others (start :: inner ++ block :: anc) (block :: anc) =
      entriesInBlock file (inlines block) block anc (start :: inner ++ block :: anc) ++ others block := by
    simp only [scopeEntries, if_pos hk]
    have : localEntries file block = [] := by
      unfold localEntries
      rw [hk]
      rfl
    rw [this, List.append_nil]
  have hstart : headStart (start :: inner ++ block :: anc) = start.start := rfl
  have hmem : e ∈ entriesInBlock file (inlines block) block anc (start :: inner ++ block :: anc) :=
    (C43_latest file (inlines block) block anc _ e hm).2 ⟨l, by rw [hstart]; exact hl⟩
  have hshape : ∃ rest, scopesAround file inlines others outside (start :: inner ++ block :: anc) =
      (entriesInBlock file (inlines block) block anc (start :: inner ++ block :: anc) ++ others block) :: rest := by
    unfold scopesAround scopesAt
    have htail : (start :: inner ++ block :: anc).tail = inner ++ block :: anc := rfl
    rw [htail, hscopes, hstart, List.filter_cons]
    simp only [hskip, Bool.not_false, if_true]
    rw [List.map_cons, hse, List.cons_append]
    exact ⟨_, rfl⟩
  obtain ⟨rest, hshape⟩ := hshape
  rw [C59_innermost, hshape]
  constructor
  · rintro ⟨hw, i, s, o, h1, h2, h3⟩
    have hname : x.name = e.name := (hw.1 _ rfl).symm
    have hi : i = [] := by
      cases i with
      | nil => rfl
      | cons y ys =>
        exfalso
        simp only [List.cons_append, List.cons.injEq] at h1
        exact h3 y (by simp) e (by rw [← h1.1]; exact List.mem_append_left _ hmem) ⟨hx.symm, hname.symm⟩
    subst hi
    simp only [List.nil_append, List.cons.injEq] at h1
    rw [← h1.1] at h2
    rcases List.mem_append.1 h2 with h2 | h2
    · have hnd := C43_single file (inlines block) block anc (start :: inner ++ block :: anc) hm
      exact eq_of_name hnd h2 hmem hname
    · exact absurd hname (hot x h2)
  · rintro rfl
    exact ⟨⟨fun n hn => (Option.some.inj hn).symm, ha⟩, [], _, rest, rfl, List.mem_append_left _ hmem, by simp⟩

/-! ### Examples -/

def exPat (c : Char) : Green := .node .IDENT_PAT [.node .NAME [.tok .IDENT [c]]]
def exUse (c : Char) : Green := .node .PATH_EXPR [.node .PATH [.tok .IDENT [c]]]
def exLet (c d : Char) : Green :=
  .node .LET_STMT [.tok .LET_KW "let".toList, .tok .WHITESPACE [' '], exPat c, .tok .EQ ['='], exUse d, .tok .SEMICOLON [';']]

/-- `fun(x){let x=x;let y=x;let x=y;x}`. -/
def exBody : Green :=
  .node .FUN [.tok .FUN_KW "fun".toList, .node .PARAM_LIST [.tok .L_PAREN ['('], .node .PARAM [exPat 'x'], .tok .R_PAREN [')']],
    .node .BLOCK_EXPR [.tok .L_CURLY ['{'], exLet 'x' 'x', exLet 'y' 'x', exLet 'x' 'y', exUse 'x', .tok .R_CURLY ['}']]]

/-- The ancestors of the token with that number. -/
def exSite (g : Green) (n : Nat) : List Elem := ((allTokens g).getD n []).tail

def exWalk (g : Green) (n : Nat) (name : Char) : List (List Nat) :=
  (walkScopes 0 (fun _ => []) (fun _ => []) [] (fun ns => decide (ns = .NAME)) (some [name]) (exSite g n)).map Entry.path

-- the `x` in the first statement is the parameter, in the second the first `x`, in the end the last one
example : exWalk exBody 9 'x' = [[0, 1, 1]] := by decide +kernel
example : exWalk exBody 15 'x' = [[2, 1, 2]] := by decide +kernel
example : exWalk exBody 23 'x' = [[2, 3, 2]] := by decide +kernel

/-- The hypotheses of `C43_latest` and `C59_local` are met: the last `x` of the body. -/
example : ∃ block anc l e, isMslContext (block :: anc) = false ∧ block.kind = .BLOCK_EXPR ∧
    LastBinding ((letStmts 0 block anc).filter fun l => decide (l.stmt.stop ≤ 33)) l e ∧ e.name = ['x'] := by
  refine ⟨⟨[2], 6, .node .BLOCK_EXPR [.tok .L_CURLY ['{'], exLet 'x' 'x', exLet 'y' 'x', exLet 'x' 'y', exUse 'x', .tok .R_CURLY ['}']]⟩,
    [Elem.root exBody], ⟨⟨[3, 2], 23, exLet 'x' 'y'⟩, false, [⟨['x'], .NAME, 0, [2, 3, 2]⟩]⟩, ⟨['x'], .NAME, 0, [2, 3, 2]⟩,
    by decide +kernel, rfl, ⟨[⟨⟨[1, 2], 7, exLet 'x' 'x'⟩, false, [⟨['x'], .NAME, 0, [2, 1, 2]⟩]⟩,
      ⟨⟨[2, 2], 15, exLet 'y' 'x'⟩, false, [⟨['y'], .NAME, 0, [2, 2, 2]⟩]⟩], [], ?_, ⟨[], [], rfl, by simp⟩, by simp⟩, rfl⟩
  rfl

/-- `match(e){x=>x}`: the pattern does not see itself, the expression does. -/
def exMatch : Green :=
  .node .FUN [.node .MATCH_ARM [exPat 'x', .tok .FAT_ARROW "=>".toList, exUse 'x']]

example : exWalk exMatch 0 'x' = [] := by decide +kernel
example : exWalk exMatch 2 'x' = [[0, 0]] := by decide +kernel

/-- `fun(i){for(i in i)}`. -/
def exFor : Green :=
  .node .FUN [.node .PARAM_LIST [.node .PARAM [exPat 'i']],
    .node .BLOCK_EXPR [.node .FOR_EXPR [.tok .FOR_KW "for".toList,
      .node .FOR_CONDITION [.tok .L_PAREN ['('], exPat 'i', .tok .IN_KW "in".toList, exUse 'i', .tok .R_PAREN [')']]]]]

/-- The index of a `for` is found already in the range it runs over: there `i` should be the parameter. -/
theorem C59_for_fails : ∃ (g : Green) (site : List Elem) (e : Entry) (c : Elem), site ∈ (allTokens g).map List.tail ∧
    c ∈ site ∧ c.kind = .FOR_CONDITION ∧ (∃ p, nodeChild c .IDENT_PAT = some p ∧ p.path = e.path) ∧
    walkScopes 0 (fun _ => []) (fun _ => []) [] (fun ns => decide (ns = .NAME)) (some ['i']) site = [e] := by
  refine ⟨exFor, exSite exFor 5, ⟨['i'], .NAME, 0, [1, 1, 0, 1]⟩, (exSite exFor 5).getD 2 (Elem.root exFor), ?_, ?_, ?_, ?_, ?_⟩
  · exact List.mem_map.2 ⟨(allTokens exFor)[5], List.getElem_mem _, rfl⟩
  · exact List.mem_of_getElem? (i := 2) rfl
  · decide +kernel
  · exact ⟨_, rfl, rfl⟩
  · decide +kernel

end Verif.Nameres
