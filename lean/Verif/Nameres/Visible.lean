import Verif.Nameres.ItemScope
import Verif.Nameres.Scopes

/-! Visibility of items (lang/src/nameres/is_visible.rs, syntax/src/ast/visibility.rs). -/

namespace Verif.Nameres
open Verif.Parser (Green)
open Verif.Syntax

/-- syntax/src/ast/visibility.rs:11–31. -/
inductive Vis where
  | Public | Friend | Package | Private
  deriving DecidableEq, Repr

/-- The kinds of `AnyHasVisibility` (generated/nodes.rs:9735). -/
def visKinds : List SyntaxKind := [.CONST, .ENUM, .FUN, .LEMMA, .SPEC_FUN, .SPEC_INLINE_FUN, .STRUCT]

/-- syntax/src/ast/visibility.rs:34–56 with syntax/src/ast/node_ext/visibility.rs:9–40. The test for `entry` comes before
a result that is the same. -/
def visOf (e : Elem) : Vis :=
  match nodeChild e .VISIBILITY_MODIFIER with
  | none => .Private
  | some m =>
    let has := fun k => (tokenChild m k).isSome
    let isPublic := has .PUBLIC_KW && !has .L_PAREN
    if (has .PUBLIC_KW && has .L_PAREN && has .FRIEND_KW && has .L_PAREN) || (!isPublic && has .FRIEND_KW) then .Friend
    else if (has .PUBLIC_KW && has .L_PAREN && has .PACKAGE_KW && has .L_PAREN) || (!isPublic && has .PACKAGE_KW) then .Package
    else if has .PUBLIC_KW && has .L_PAREN && has .SCRIPT_KW && has .L_PAREN then .Public
    else .Public

/-- A syntax element of a file with its ancestors from the inside out. -/
structure Place where
  file : Nat
  elem : Elem
  anc : List Elem

/-- What the database says: the trees, the package of a file, the module that a friend declaration means and whether a module
is `0x0::builtins`. A module is given by its file and its path in the tree. -/
structure World where
  tree : Nat → Green
  package : Nat → Nat
  friend : Nat → Elem → Option (Nat × List Nat)
  builtins : Nat → Elem → Bool

/-- `ancestors()` of a `rowan` element: a node is its own first ancestor, a token is not. -/
def Place.ancestors (p : Place) : List Elem := if p.elem.green.isTok then p.anc else p.elem :: p.anc

/-- syntax_element.rs:111–113 (`ancestor_strict`). For a token this leaves out its parent. -/
def Place.strict (p : Place) (k : SyntaxKind) : Option Elem := p.ancestors.tail.find? fun e => decide (e.kind = k)

/-- syntax_element.rs:142–144. -/
def Place.module (p : Place) : Option Elem := p.strict .MODULE

/-- `==` of nodes of trees. -/
def sameNode (f : Nat) (a : Option Elem) (g : Nat) (b : Option Elem) : Bool :=
  match a, b with
  | some x, some y => decide (f = g) && decide (x.path = y.path)
  | _, _ => false

/-- The node of a place (syntax_element.rs:185–190). -/
def Place.node (p : Place) : Option Elem := p.ancestors.head?

/-- hir_db.rs:297–303. -/
def scopeAt (w : World) (f : Nat) (e : Option Elem) : ItemScope := match e with
  | some e => itemScope (w.tree f) (Elem.ptr e)
  | none => .Main

/-- The kind of the parent of the outermost path around a path (syntax/src/ast/node_ext/path.rs:35–65); nothing when the place is
no path. -/
def Place.rootParent (p : Place) : Option SyntaxKind :=
  if !p.elem.green.isTok && decide (p.elem.kind = .PATH) then
    (p.anc.dropWhile fun e => decide (e.kind = .PATH)).head?.map Elem.kind
  else none

/-- is_visible.rs:20–24. -/
inductive Invisible where
  | priv (vis : Vis)
  | wrongScope (s : ItemScope)
  | unknown
  deriving DecidableEq, Repr

/-- is_visible.rs:196–212: some friend declaration of the item's module means the module of the context. -/
def isFriend (w : World) (item ctx : Place) : Bool :=
  match item.module, ctx.module with
  | some m, some c =>
    (m.children.filter (isNode .FRIEND)).any fun d => decide (w.friend item.file d = some (ctx.file, c.path))
  | _, _ => false

/-- is_visible.rs:104–127: what suffices in a `use`. -/
def usable (w : World) (ns : Ns) (item ctx : Place) : Bool :=
  [SyntaxKind.MODULE, .STRUCT, .ENUM].contains item.elem.kind ||
  (visKinds.contains item.elem.kind && decide (visOf item.elem ≠ .Private)) ||
  mslOnlyKinds.contains item.elem.kind ||
  (decide (scopeAt w ctx.file ctx.node = .Test) && decide (ns = .NAME))

/-- is_visible.rs:75–223. `item` is nothing when the location has no named element; `adj` is the scope adjustment of the entry. -/
def isVisible (w : World) (ns : Ns) (adj : Option ItemScope) (item : Option Place) (ctx : Place) : Option Invisible :=
  if isMslContext ctx.ancestors then none
  else if (ctx.strict .ATTR_ITEM).isSome then none
  else match item with
    | none => some .unknown
    | some item =>
      if decide (ctx.rootParent = some .USE_SPECK) && usable w ns item ctx then none
      else if [SyntaxKind.FUN, .CONST].contains item.elem.kind && (item.module.map (w.builtins item.file)).getD false then none
      else
        let own := scopeAt w item.file (some item.elem)
        let scope := match adj with
          | some a => own.shrink a
          | none => own
        if decide (scope ≠ .Main) && decide (scope ≠ scopeAt w ctx.file ctx.node) then some (.wrongScope scope)
        else if mslOnlyKinds.contains item.elem.kind then some (.wrongScope .Verify)
        else if sameNode item.file item.module ctx.file ctx.module then none
        else if sameNode item.file (item.strict .SCRIPT) ctx.file (ctx.strict .SCRIPT) then none
        else if [Ns.TYPE, .TUPLE_STRUCT, .ENUM].contains ns && decide (ctx.rootParent = some .PATH_TYPE) then none
        else
          match if visKinds.contains item.elem.kind then visOf item.elem else .Public with
          | .Private => some (.priv .Private)
          | .Public => none
          | .Friend => if isFriend w item ctx then none else some (.priv .Friend)
          | .Package => if w.package ctx.file = w.package item.file then none else some (.priv .Package)

/-! ### Specification -/

/-- The words of a visibility modifier. -/
def words (m : Elem) : List SyntaxKind := (m.children.filter fun c => !c.kind.isTrivia).map Elem.kind

/-- The item begins with the modifier that has these words. -/
def Modified (e : Elem) (ws : List SyntaxKind) : Prop := ∃ m, nodeChild e .VISIBILITY_MODIFIER = some m ∧ words m = ws ∧
  ∀ c ∈ m.children, c.green.isTok = true

/-- What a visibility modifier means. -/
inductive Declared (e : Elem) : Vis → Prop where
  | none : nodeChild e .VISIBILITY_MODIFIER = none → Declared e .Private
  | pub : Modified e [.PUBLIC_KW] → Declared e .Public
  | script : Modified e [.PUBLIC_KW, .L_PAREN, .SCRIPT_KW, .R_PAREN] → Declared e .Public
  | pubFriend : Modified e [.PUBLIC_KW, .L_PAREN, .FRIEND_KW, .R_PAREN] → Declared e .Friend
  | friend : Modified e [.FRIEND_KW] → Declared e .Friend
  | pubPackage : Modified e [.PUBLIC_KW, .L_PAREN, .PACKAGE_KW, .R_PAREN] → Declared e .Package
  | package : Modified e [.PACKAGE_KW] → Declared e .Package

/-- The visibility of an item: what it declares, if it is a constant, function or type; anything else has no restriction. -/
def HasVis (e : Elem) (v : Vis) : Prop :=
  match e.kind with
  | .CONST | .ENUM | .FUN | .LEMMA | .SPEC_FUN | .SPEC_INLINE_FUN | .STRUCT => Declared e v
  | _ => v = .Public

/-- `m` is the nearest node of the kind around the place. -/
def NearestOf (k : SyntaxKind) (p : Place) (m : Elem) : Prop :=
  ∃ inner outer, p.ancestors.tail = inner ++ m :: outer ∧ m.kind = k ∧ ∀ e ∈ inner, e.kind ≠ k

/-- Both places are in the same node of the kind. -/
def SameOf (k : SyntaxKind) (p q : Place) : Prop :=
  p.file = q.file ∧ ∃ a b, NearestOf k p a ∧ NearestOf k q b ∧ a.path = b.path

/-- The place is a path in the given kind of node. -/
def PathIn (k : SyntaxKind) (p : Place) : Prop :=
  p.elem.green.isTok = false ∧ p.elem.kind = .PATH ∧
    ∃ paths e rest, p.anc = paths ++ e :: rest ∧ (∀ x ∈ paths, x.kind = .PATH) ∧ e.kind ≠ .PATH ∧ e.kind = k

/-- The item's module declares the module of the place as friend. -/
def Befriended (w : World) (item ctx : Place) : Prop :=
  ∃ m c d, NearestOf .MODULE item m ∧ NearestOf .MODULE ctx c ∧ d ∈ m.children ∧ d.green.isTok = false ∧ d.kind = .FRIEND ∧
    w.friend item.file d = some (ctx.file, c.path)

/-- Verification items. -/
def MslOnly (e : Elem) : Prop :=
  match e.kind with
  | .ITEM_SPEC | .LEMMA | .MODULE_SPEC | .SCHEMA | .SCHEMA_FIELD | .SPEC_BLOCK_EXPR | .SPEC_FUN | .SPEC_INLINE_FUN => True
  | _ => False

/-- The scope of the item in the place where its name comes from. -/
def EntryScope (w : World) (adj : Option ItemScope) (item : Place) (s : ItemScope) : Prop :=
  (scopeAt w item.file (some item.elem) ≠ .Main ∧ s = scopeAt w item.file (some item.elem)) ∨
  (scopeAt w item.file (some item.elem) = .Main ∧ adj = some s) ∨ (scopeAt w item.file (some item.elem) = .Main ∧ adj = none ∧ s = .Main)

/-- Move's rules for an item with visibility `v`: test-only and verify-only items only in code of the same scope, verification
items not at all in code; otherwise in the own module or script, as the name of a type, or as its visibility says. -/
def Allowed (w : World) (ns : Ns) (adj : Option ItemScope) (item ctx : Place) (v : Vis) : Prop :=
  (∃ s, EntryScope w adj item s ∧ (s = .Main ∨ s = scopeAt w ctx.file ctx.node)) ∧
  ¬ MslOnly item.elem ∧
  (SameOf .MODULE item ctx ∨ SameOf .SCRIPT item ctx ∨
    ((ns = .TYPE ∨ ns = .TUPLE_STRUCT ∨ ns = .ENUM) ∧ PathIn .PATH_TYPE ctx) ∨
    match v with
    | .Public => True
    | .Friend => Befriended w item ctx
    | .Package => w.package ctx.file = w.package item.file
    | .Private => False)

/-- A function or constant of `0x0::builtins`. -/
def Builtin (w : World) (item : Place) : Prop :=
  (item.elem.kind = .FUN ∨ item.elem.kind = .CONST) ∧ ∃ m, NearestOf .MODULE item m ∧ w.builtins item.file m = true

theorem find?_nearest (k : SyntaxKind) (l : List Elem) (m : Elem) :
    (l.find? fun e => decide (e.kind = k)) = some m ↔ ∃ inner outer, l = inner ++ m :: outer ∧ m.kind = k ∧ ∀ e ∈ inner, e.kind ≠ k := by
  rw [List.find?_eq_some_iff_append]
  constructor
  · rintro ⟨h1, a, b, h2, h3⟩
    exact ⟨a, b, h2, by simpa using h1, fun e he => by simpa using h3 e he⟩
  · rintro ⟨a, b, h2, h1, h3⟩
    exact ⟨by simpa using h1, a, b, h2, fun e he => by simpa using h3 e he⟩

theorem strict_iff (p : Place) (k : SyntaxKind) (m : Elem) : p.strict k = some m ↔ NearestOf k p m := find?_nearest k _ m

theorem sameNode_iff (k : SyntaxKind) (p q : Place) : sameNode p.file (p.strict k) q.file (q.strict k) = true ↔ SameOf k p q := by
  unfold SameOf
  simp only [← strict_iff]
  cases h1 : p.strict k with
  | none => simp [sameNode]
  | some a =>
    cases h2 : q.strict k with
    | none => simp [sameNode]
    | some b =>
      simp only [sameNode, Bool.and_eq_true, decide_eq_true_eq]
      constructor
      · rintro ⟨h3, h4⟩
        exact ⟨h3, a, b, rfl, rfl, h4⟩
      · rintro ⟨h3, a', b', h5, h6, h4⟩
        cases h5; cases h6
        exact ⟨h3, h4⟩

theorem rootParent_iff (k : SyntaxKind) (p : Place) : p.rootParent = some k ↔ PathIn k p := by
  unfold Place.rootParent PathIn
  have key : ∀ l : List Elem, (l.dropWhile fun e => decide (e.kind = .PATH)).head?.map Elem.kind = some k ↔
      ∃ paths e rest, l = paths ++ e :: rest ∧ (∀ x ∈ paths, x.kind = .PATH) ∧ e.kind ≠ .PATH ∧ e.kind = k := by
    intro l
    induction l with
    | nil => simp
    | cons x l ih =>
      rw [List.dropWhile_cons]
      by_cases hx : x.kind = .PATH
      · rw [if_pos (by simpa using hx), ih]
        constructor
        · rintro ⟨ps, e, r, rfl, h1, h2, h3⟩
          refine ⟨x :: ps, e, r, rfl, ?_, h2, h3⟩
          intro y hy
          rcases List.mem_cons.1 hy with rfl | hy
          · exact hx
          · exact h1 y hy
        · rintro ⟨ps, e, r, h0, h1, h2, h3⟩
          cases ps with
          | nil =>
            simp only [List.nil_append, List.cons.injEq] at h0
            exact absurd (h0.1 ▸ hx) h2
          | cons y ys =>
            simp only [List.cons_append, List.cons.injEq] at h0
            exact ⟨ys, e, r, h0.2, fun z hz => h1 z (by simp [hz]), h2, h3⟩
      · rw [if_neg (by simpa using hx)]
        simp only [List.head?_cons, Option.map_some, Option.some.injEq]
        constructor
        · intro h
          exact ⟨[], x, l, rfl, by simp, hx, h⟩
        · rintro ⟨ps, e, r, h0, h1, h2, h3⟩
          cases ps with
          | nil =>
            simp only [List.nil_append, List.cons.injEq] at h0
            rw [h0.1]; exact h3
          | cons y ys =>
            simp only [List.cons_append, List.cons.injEq] at h0
            exact absurd (by rw [h0.1]; exact h1 y (by simp)) hx
  by_cases h : p.elem.green.isTok = false ∧ p.elem.kind = .PATH
  · rw [if_pos (by simp [h.1, h.2]), key]
    simp only [h.1, h.2, true_and]
  · rw [if_neg (by
      intro h'
      simp only [Bool.and_eq_true, Bool.not_eq_true', decide_eq_true_eq] at h'
      exact h h')]
    simp only [reduceCtorEq, false_iff]
    rintro ⟨h1, h2, -⟩
    exact h ⟨h1, h2⟩

theorem mslOnly_iff (e : Elem) : mslOnlyKinds.contains e.kind = true ↔ MslOnly e := by
  unfold MslOnly
  generalize e.kind = k
  cases k <;> decide +kernel

theorem friend_iff (w : World) (item ctx : Place) : isFriend w item ctx = true ↔ Befriended w item ctx := by
  unfold isFriend Befriended
  simp only [← strict_iff]
  unfold Place.module
  cases h1 : item.strict .MODULE with
  | none => simp
  | some m =>
    cases h2 : ctx.strict .MODULE with
    | none => simp
    | some c =>
      simp only [List.any_eq_true, List.mem_filter, isNode, Bool.and_eq_true, Bool.not_eq_true', decide_eq_true_eq]
      constructor
      · rintro ⟨d, ⟨h3, h4, h5⟩, h6⟩
        exact ⟨m, c, d, rfl, rfl, h3, h4, h5, h6⟩
      · rintro ⟨m', c', d, h7, h8, h3, h4, h5, h6⟩
        cases h7; cases h8
        exact ⟨d, ⟨h3, h4, h5⟩, h6⟩

/-- The visibility that the code reads off is the declared one. -/
theorem C41_modifier (e : Elem) (v : Vis) (h : Declared e v) : visOf e = v := by
  have hw : ∀ m : Elem, (∀ c ∈ m.children, c.green.isTok = true) → ∀ k : SyntaxKind, k.isTrivia = false →
      ((tokenChild m k).isSome = true ↔ k ∈ words m) := by
    intro m hm k hk
    unfold tokenChild words
    rw [List.find?_isSome]
    simp only [List.mem_map, List.mem_filter, isToken, Bool.and_eq_true, decide_eq_true_eq, Bool.not_eq_true']
    constructor
    · rintro ⟨c, hc, -, h2⟩
      exact ⟨c, ⟨hc, by rw [h2]; exact hk⟩, h2⟩
    · rintro ⟨c, ⟨hc, -⟩, h2⟩
      exact ⟨c, hc, hm c hc, h2⟩
  have key : ∀ ws, Modified e ws → ∃ m, nodeChild e .VISIBILITY_MODIFIER = some m ∧
      ∀ k : SyntaxKind, k.isTrivia = false → (tokenChild m k).isSome = decide (k ∈ ws) := by
    rintro ws ⟨m, h1, h2, h3⟩
    refine ⟨m, h1, fun k hk => ?_⟩
    have := hw m h3 k hk
    rw [h2] at this
    rw [Bool.eq_iff_iff, this]
    simp
  unfold visOf
  cases h with
  | none h => rw [h]
  | _ h =>
    obtain ⟨m, h1, h2⟩ := key _ h
    rw [h1]
    simp only [h2 .PUBLIC_KW rfl, h2 .L_PAREN rfl, h2 .FRIEND_KW rfl, h2 .PACKAGE_KW rfl, h2 .SCRIPT_KW rfl]
    decide +kernel

theorem hasVis_eq (e : Elem) (v : Vis) (h : HasVis e v) : (if visKinds.contains e.kind then visOf e else .Public) = v := by
  unfold HasVis at h
  by_cases hk : visKinds.contains e.kind
  · rw [if_pos hk]
    refine C41_modifier e v ?_
    have : e.kind ∈ visKinds := List.contains_iff_mem.1 hk
    simp only [visKinds, List.mem_cons, List.not_mem_nil, or_false] at this
    rcases this with h' | h' | h' | h' | h' | h' | h' <;> rw [h'] at h <;> exact h
  · rw [if_neg hk]
    have : e.kind ∉ visKinds := fun h => hk (List.contains_iff_mem.2 h)
    simp only [visKinds, List.mem_cons, List.not_mem_nil, or_false, not_or] at this
    split at h <;> simp_all

theorem entryScope_iff (w : World) (adj : Option ItemScope) (item : Place) (s : ItemScope) :
    EntryScope w adj item s ↔ (match adj with
      | some a => (scopeAt w item.file (some item.elem)).shrink a
      | none => scopeAt w item.file (some item.elem)) = s := by
  unfold EntryScope ItemScope.shrink
  generalize scopeAt w item.file (some item.elem) = o
  cases adj with
  | none =>
    cases o <;> simp [eq_comm]
  | some a => cases o <;> simp [eq_comm]

theorem builtin_iff (w : World) (item : Place) :
    ([SyntaxKind.FUN, .CONST].contains item.elem.kind && (item.module.map (w.builtins item.file)).getD false) = true ↔ Builtin w item := by
  unfold Builtin Place.module
  simp only [← strict_iff]
  rw [Bool.and_eq_true, List.contains_iff_mem]
  simp only [List.mem_cons, List.not_mem_nil, or_false]
  refine and_congr_right fun _ => ?_
  cases item.strict .MODULE with
  | none => simp
  | some m => simp

theorem rule_core (w : World) (ns : Ns) (adj : Option ItemScope) (item ctx : Place) (v : Vis)
    (hm : isMslContext ctx.ancestors = false) (ha : ∀ m, ¬ NearestOf .ATTR_ITEM ctx m)
    (hu' : (decide (ctx.rootParent = some .USE_SPECK) && usable w ns item ctx) = false)
    (hb : ¬ Builtin w item) (hv : HasVis item.elem v) :
    isVisible w ns adj (some item) ctx = none ↔ Allowed w ns adj item ctx v := by
  have ha' : (ctx.strict .ATTR_ITEM).isSome = false := by
    cases h : ctx.strict .ATTR_ITEM with
    | none => rfl
    | some m => exact absurd ((strict_iff _ _ _).1 h) (ha m)
  have hb' := Bool.eq_false_iff.2 fun h => hb ((builtin_iff w item).1 h)
  unfold isVisible
  dsimp only
  rw [hm, ha', hu', hb']
  simp only [Bool.false_eq_true, if_false]
  rw [hasVis_eq _ _ hv]
  generalize hs : (match adj with
      | some a => (scopeAt w item.file (some item.elem)).shrink a
      | none => scopeAt w item.file (some item.elem)) = s
  have hs' := fun t => entryScope_iff w adj item t
  rw [hs] at hs'
  unfold Allowed
  by_cases c1 : s = .Main ∨ s = scopeAt w ctx.file ctx.node
  · have e1 : (decide (s ≠ .Main) && decide (s ≠ scopeAt w ctx.file ctx.node)) = false := by
      rw [Bool.and_eq_false_iff, decide_eq_false_iff_not, decide_eq_false_iff_not, Classical.not_not, Classical.not_not]
      exact c1
    rw [e1]
    simp only [Bool.false_eq_true, if_false]
    have g1 : (∃ t, EntryScope w adj item t ∧ (t = .Main ∨ t = scopeAt w ctx.file ctx.node)) :=
      ⟨s, (hs' s).2 rfl, c1⟩
    by_cases c2 : MslOnly item.elem
    · rw [if_pos ((mslOnly_iff _).2 c2)]
      simp [c2]
    · rw [if_neg fun h => c2 ((mslOnly_iff _).1 h)]
      have sm : sameNode item.file item.module ctx.file ctx.module = true ↔ SameOf .MODULE item ctx := sameNode_iff .MODULE item ctx
      by_cases c3 : SameOf .MODULE item ctx
      · rw [if_pos (sm.2 c3)]
        simp only [true_iff]
        exact ⟨g1, c2, .inl c3⟩
      · rw [if_neg fun h => c3 (sm.1 h)]
        by_cases c4 : SameOf .SCRIPT item ctx
        · rw [if_pos ((sameNode_iff .SCRIPT item ctx).2 c4)]
          simp only [true_iff]
          exact ⟨g1, c2, .inr (.inl c4)⟩
        · rw [if_neg fun h => c4 ((sameNode_iff .SCRIPT item ctx).1 h)]
          have ty : ([Ns.TYPE, .TUPLE_STRUCT, .ENUM].contains ns && decide (ctx.rootParent = some .PATH_TYPE)) = true ↔
              ((ns = .TYPE ∨ ns = .TUPLE_STRUCT ∨ ns = .ENUM) ∧ PathIn .PATH_TYPE ctx) := by
            rw [Bool.and_eq_true, decide_eq_true_iff, rootParent_iff _ _, List.contains_iff_mem]
            simp only [List.mem_cons, List.not_mem_nil, or_false]
          by_cases c5 : (ns = .TYPE ∨ ns = .TUPLE_STRUCT ∨ ns = .ENUM) ∧ PathIn .PATH_TYPE ctx
          · rw [if_pos (ty.2 c5)]
            simp only [true_iff]
            exact ⟨g1, c2, .inr (.inr (.inl c5))⟩
          · rw [if_neg fun h => c5 (ty.1 h)]
            have : ∀ P : Prop, ((∃ t, EntryScope w adj item t ∧ (t = .Main ∨ t = scopeAt w ctx.file ctx.node)) ∧ ¬ MslOnly item.elem ∧
                (SameOf .MODULE item ctx ∨ SameOf .SCRIPT item ctx ∨
                  ((ns = .TYPE ∨ ns = .TUPLE_STRUCT ∨ ns = .ENUM) ∧ PathIn .PATH_TYPE ctx) ∨ P)) ↔ P := by
              intro P
              constructor
              · rintro ⟨-, -, h | h | h | h⟩
                · exact absurd h c3
                · exact absurd h c4
                · exact absurd h c5
                · exact h
              · intro h
                exact ⟨g1, c2, .inr (.inr (.inr h))⟩
            rw [this]
            cases v with
            | Public => simp
            | Private => simp
            | Friend =>
              simp only
              rw [← friend_iff]
              cases isFriend w item ctx <;> simp
            | Package =>
              simp only
              by_cases h : w.package ctx.file = w.package item.file <;> simp [h]
  · have e1 : (decide (s ≠ .Main) && decide (s ≠ scopeAt w ctx.file ctx.node)) = true := by
      rw [Bool.and_eq_true, decide_eq_true_iff, decide_eq_true_iff]
      exact not_or.1 c1
    rw [e1]
    simp only [if_true, reduceCtorEq, false_iff]
    rintro ⟨⟨t, h1, h2⟩, -⟩
    rw [← (hs' t).1 h1] at h2
    exact c1 h2

/-- Outside of specifications, attributes and `use`, an item that is no builtin is visible exactly if Move's rules allow it. -/
theorem C41_rule (w : World) (ns : Ns) (adj : Option ItemScope) (item ctx : Place) (v : Vis)
    (hm : isMslContext ctx.ancestors = false) (ha : ∀ m, ¬ NearestOf .ATTR_ITEM ctx m) (hu : ¬ PathIn .USE_SPECK ctx)
    (hb : ¬ Builtin w item) (hv : HasVis item.elem v) :
    isVisible w ns adj (some item) ctx = none ↔ Allowed w ns adj item ctx v := by
  refine rule_core w ns adj item ctx v hm ha ?_ hb hv
  rw [Bool.and_eq_false_iff, decide_eq_false_iff_not, rootParent_iff]
  exact .inl hu

/-- In specifications and attributes every item is visible. -/
theorem C41_everything (w : World) (ns : Ns) (adj : Option ItemScope) (item : Option Place) (ctx : Place)
    (h : isMslContext ctx.ancestors = true ∨ ∃ m, NearestOf .ATTR_ITEM ctx m) : isVisible w ns adj item ctx = none := by
  unfold isVisible
  rcases h with h | ⟨m, h⟩
  · rw [if_pos h]
  · rw [(strict_iff _ _ _).2 h]
    simp

/-- A node with its ancestors is in a specification: it is, or is inside, a specification of an item or of a module, a lemma, a
schema or its field, a block `spec { … }` in code, or a specification function, with no module, function, struct or enum
in between. -/
def InSpecification (site : List Elem) : Prop :=
  ∃ inner s outer, site = inner ++ s :: outer ∧
    (s.kind = .ITEM_SPEC ∨ s.kind = .MODULE_SPEC ∨ s.kind = .LEMMA ∨ s.kind = .SCHEMA ∨ s.kind = .SCHEMA_FIELD ∨
      s.kind = .SPEC_BLOCK_EXPR ∨ s.kind = .SPEC_FUN ∨ s.kind = .SPEC_INLINE_FUN) ∧
    ∀ x ∈ inner, x.kind ≠ .MODULE ∧ x.kind ≠ .FUN ∧ x.kind ≠ .STRUCT ∧ x.kind ≠ .ENUM

/-- What counts as a specification. -/
theorem C41_specification (site : List Elem) : isMslContext site = true ↔ InSpecification site := by
  induction site with
  | nil =>
    constructor
    · intro h; cases h
    · rintro ⟨i, s, o, h, -⟩; simp at h
  | cons e es ih =>
    unfold isMslContext
    split
    · rename_i h
      simp only [List.contains_iff_mem, List.mem_cons, List.not_mem_nil, or_false] at h
      constructor
      · intro h; cases h
      · rintro ⟨i, s, o, h1, h2, h3⟩
        cases i with
        | nil => obtain ⟨rfl, -⟩ := List.cons.inj h1; rcases h with h | h | h | h <;> simp [h] at h2
        | cons x i =>
          obtain ⟨rfl, -⟩ := List.cons.inj h1
          have := h3 _ List.mem_cons_self
          rcases h with h | h | h | h <;> simp [h] at this
    · rename_i h
      simp only [List.contains_iff_mem, List.mem_cons, List.not_mem_nil, or_false, not_or] at h
      split
      · rename_i h1
        simp only [mslOnlyKinds, List.contains_iff_mem, List.mem_cons, List.not_mem_nil, or_false] at h1
        refine iff_of_true rfl ⟨[], e, es, rfl, ?_, by simp⟩
        tauto
      · rename_i h1
        simp only [mslOnlyKinds, List.contains_iff_mem, List.mem_cons, List.not_mem_nil, or_false, not_or] at h1
        rw [ih]
        constructor
        · rintro ⟨i, s, o, rfl, h2, h3⟩
          refine ⟨e :: i, s, o, rfl, h2, ?_⟩
          intro x hx
          rcases List.mem_cons.1 hx with rfl | hx
          · exact h
          · exact h3 x hx
        · rintro ⟨i, s, o, h2, h3, h4⟩
          cases i with
          | nil => obtain ⟨rfl, -⟩ := List.cons.inj h2; tauto
          | cons x i =>
            obtain ⟨rfl, rfl⟩ := List.cons.inj h2
            exact ⟨i, s, o, rfl, h3, fun y hy => h4 y (List.mem_cons_of_mem _ hy)⟩

/-- A block of `spec f { … }` in a module is in a specification, the body of a function in a module is not. -/
example : InSpecification [⟨[0, 0], 0, .node .BLOCK_EXPR []⟩, ⟨[0], 0, .node .ITEM_SPEC []⟩, ⟨[], 0, .node .MODULE []⟩] ∧
    ¬ InSpecification [⟨[0, 0], 0, .node .BLOCK_EXPR []⟩, ⟨[0], 0, .node .FUN []⟩, ⟨[], 0, .node .MODULE []⟩] := by
  rw [← C41_specification, ← C41_specification]
  decide

/-- Builtin functions and constants are visible everywhere. -/
theorem C41_builtin (w : World) (ns : Ns) (adj : Option ItemScope) (item ctx : Place) (h : Builtin w item) :
    isVisible w ns adj (some item) ctx = none := by
  have := (builtin_iff w item).2 h
  unfold isVisible
  dsimp only
  rw [this]
  simp

/-- In a `use`, besides what is allowed elsewhere: modules and types, whatever is not private, verification items, and in test
code constants. -/
theorem C41_use (w : World) (ns : Ns) (adj : Option ItemScope) (item ctx : Place) (v : Vis) (hu : PathIn .USE_SPECK ctx)
    (hm : isMslContext ctx.ancestors = false) (ha : ∀ m, ¬ NearestOf .ATTR_ITEM ctx m) (hb : ¬ Builtin w item) (hv : HasVis item.elem v) :
    isVisible w ns adj (some item) ctx = none ↔
      ((item.elem.kind = .MODULE ∨ item.elem.kind = .STRUCT ∨ item.elem.kind = .ENUM) ∨
        (item.elem.kind ∈ visKinds ∧ v ≠ .Private) ∨ MslOnly item.elem ∨
        (scopeAt w ctx.file ctx.node = .Test ∧ ns = .NAME)) ∨ Allowed w ns adj item ctx v := by
  have hus : usable w ns item ctx = true ↔ ((item.elem.kind = .MODULE ∨ item.elem.kind = .STRUCT ∨ item.elem.kind = .ENUM) ∨
        (item.elem.kind ∈ visKinds ∧ v ≠ .Private) ∨ MslOnly item.elem ∨
        (scopeAt w ctx.file ctx.node = .Test ∧ ns = .NAME)) := by
    have hvis : item.elem.kind ∈ visKinds → visOf item.elem = v := by
      intro h
      have := hasVis_eq _ _ hv
      rwa [if_pos (List.contains_iff_mem.2 h)] at this
    unfold usable
    rw [Bool.or_eq_true, Bool.or_eq_true, Bool.or_eq_true, mslOnly_iff, Bool.and_eq_true, Bool.and_eq_true, decide_eq_true_iff,
      decide_eq_true_iff, decide_eq_true_iff, List.contains_iff_mem, List.contains_iff_mem, or_assoc, or_assoc]
    simp only [List.mem_cons, List.not_mem_nil, or_false]
    have : (item.elem.kind ∈ visKinds ∧ visOf item.elem ≠ .Private) ↔ (item.elem.kind ∈ visKinds ∧ v ≠ .Private) :=
      and_congr_right fun h => by rw [hvis h]
    rw [this]
  by_cases h : usable w ns item ctx = true
  · have ha' : (ctx.strict .ATTR_ITEM).isSome = false := by
      cases h : ctx.strict .ATTR_ITEM with
      | none => rfl
      | some m => exact absurd ((strict_iff _ _ _).1 h) (ha m)
    have hu' : ctx.rootParent = some .USE_SPECK := (rootParent_iff _ _).2 hu
    have : isVisible w ns adj (some item) ctx = none := by
      unfold isVisible
      dsimp only
      rw [hm, ha', hu', h]
      simp
    rw [this]
    simp only [true_iff]
    exact .inl (hus.1 h)
  · rw [rule_core w ns adj item ctx v hm ha (by rw [Bool.eq_false_iff.2 h, Bool.and_false]) hb hv]
    exact ⟨.inr, fun h' => h'.elim (fun h' => absurd (hus.2 h') h) id⟩

/-- A place in a tree. -/
def Place.In (p : Place) (g : Green) : Prop := Chain g (p.elem :: p.anc)

/-- An item whose nearest marked node is test-only (or verify-only) is not visible in code that is not. Missing from the
statement: `use`, builtins, and nodes that share kind and range with others. -/
theorem C41_marked_partial (w : World) (ns : Ns) (item ctx : Place) (s t : ItemScope)
    (hm : isMslContext ctx.ancestors = false) (ha : ∀ m, ¬ NearestOf .ATTR_ITEM ctx m) (hu : ¬ PathIn .USE_SPECK ctx)
    (hb : ¬ Builtin w item) (hi : item.In (w.tree item.file)) (hit : item.elem.green.isTok = false)
    (hio : OnlyPtr (w.tree item.file) item.elem item.anc)
    (hc : ctx.In (w.tree ctx.file)) (hct : ctx.elem.green.isTok = false) (hco : OnlyPtr (w.tree ctx.file) ctx.elem ctx.anc)
    (hs : Nearest (item.elem :: item.anc) s) (ht : Nearest (ctx.elem :: ctx.anc) t) (h1 : s ≠ .Main) (h2 : s ≠ t) :
    isVisible w ns none (some item) ctx = some (.wrongScope s) := by
  have e1 : scopeAt w item.file (some item.elem) = s := (C42_nearest_partial _ _ _ hi hit hio s).2 hs
  have e2 : scopeAt w ctx.file ctx.node = t := by
    have : ctx.node = some ctx.elem := by simp [Place.node, Place.ancestors, hct]
    rw [this]
    exact (C42_nearest_partial _ _ _ hc hct hco t).2 ht
  have ha' : (ctx.strict .ATTR_ITEM).isSome = false := by
    cases h : ctx.strict .ATTR_ITEM with
    | none => rfl
    | some m => exact absurd ((strict_iff _ _ _).1 h) (ha m)
  have hu' : decide (ctx.rootParent = some .USE_SPECK) = false := by
    rw [decide_eq_false_iff_not, rootParent_iff]; exact hu
  have hb' := Bool.eq_false_iff.2 fun h => hb ((builtin_iff w item).1 h)
  unfold isVisible
  dsimp only
  rw [hm, ha', hu', hb', e1, e2]
  simp [h1, h2]

/-! ### Examples -/

/-- `module { #[test_only] struct  fun  public fun  public(friend) fun  friend }`. -/
def exItems : Green :=
  .node .SOURCE_FILE [.node .MODULE [
    .node .STRUCT [.node .ATTR [.node .ATTR_ITEM [.node .PATH [.tok .IDENT "test_only".toList]]], .tok .STRUCT_KW "struct".toList],
    .node .FUN [.tok .FUN_KW "fun".toList],
    .node .FUN [.node .VISIBILITY_MODIFIER [.tok .PUBLIC_KW "public".toList], .tok .FUN_KW "fun".toList],
    .node .FUN [.node .VISIBILITY_MODIFIER [.tok .PUBLIC_KW "public".toList, .tok .L_PAREN ['('], .tok .FRIEND_KW "friend".toList,
      .tok .R_PAREN [')']], .tok .FUN_KW "fun".toList],
    .node .FRIEND [.tok .FRIEND_KW "friend".toList]]]

/-- `module { use S;  fun { f } }`. -/
def exUses : Green :=
  .node .SOURCE_FILE [.node .MODULE [
    .node .USE_STMT [.tok .USE_KW "use".toList, .node .USE_SPECK [.node .PATH [.tok .IDENT ['S']]]],
    .node .FUN [.tok .FUN_KW "fun".toList, .node .BLOCK_EXPR [.node .PATH_EXPR [.node .PATH [.tok .IDENT ['f']]]]]]]

/-- The two files are in different packages; the friend declaration means the module of the second file. -/
def exWorld : World where
  tree := fun n => if n = 0 then exItems else exUses
  package := fun n => n
  friend := fun _ _ => some (1, [0])
  builtins := fun _ _ => false

/-- The element at a path of a tree, with its ancestors. -/
def exPlace (file : Nat) (g : Green) (is : List Nat) : Place :=
  match down [Elem.root g] is with
  | some (e :: es) => ⟨file, e, es⟩
  | _ => ⟨file, Elem.root g, []⟩

theorem exPlace_in (file : Nat) (g : Green) (is : List Nat) : (exPlace file g is).In g := by
  unfold exPlace Place.In
  split
  · rename_i h
    exact Up.down .top h
  · exact .top

-- the private function, the public one and the one for friends, in the body of the other module
example : isVisible exWorld .FUNCTION none (some (exPlace 0 exItems [0, 1])) (exPlace 1 exUses [0, 1, 1, 0, 0]) = some (.priv .Private) := by
  decide +kernel
example : isVisible exWorld .FUNCTION none (some (exPlace 0 exItems [0, 2])) (exPlace 1 exUses [0, 1, 1, 0, 0]) = none := by decide +kernel
example : isVisible exWorld .FUNCTION none (some (exPlace 0 exItems [0, 3])) (exPlace 1 exUses [0, 1, 1, 0, 0]) = none := by decide +kernel
example : isVisible { exWorld with friend := fun _ _ => none } .FUNCTION none (some (exPlace 0 exItems [0, 3]))
    (exPlace 1 exUses [0, 1, 1, 0, 0]) = some (.priv .Friend) := by decide +kernel
-- the test-only structure in the body
example : isVisible exWorld .TYPE none (some (exPlace 0 exItems [0, 0])) (exPlace 1 exUses [0, 1, 1, 0, 0]) = some (.wrongScope .Test) := by
  decide +kernel

/-- The hypotheses of `C41_rule` are met. -/
example : isMslContext (exPlace 1 exUses [0, 1, 1, 0, 0]).ancestors = false ∧
    (∀ m, ¬ NearestOf .ATTR_ITEM (exPlace 1 exUses [0, 1, 1, 0, 0]) m) ∧ ¬ PathIn .USE_SPECK (exPlace 1 exUses [0, 1, 1, 0, 0]) ∧
    ¬ Builtin exWorld (exPlace 0 exItems [0, 3]) ∧ HasVis (exPlace 0 exItems [0, 3]).elem .Friend := by
  refine ⟨by decide +kernel, fun m h => ?_, fun h => ?_, ?_, ?_⟩
  · have h1 := (strict_iff _ _ _).2 h
    have h2 : ((exPlace 1 exUses [0, 1, 1, 0, 0]).strict .ATTR_ITEM).isNone = true := by decide +kernel
    rw [h1] at h2
    cases h2
  · have h1 := (rootParent_iff _ _).2 h
    have h2 : (exPlace 1 exUses [0, 1, 1, 0, 0]).rootParent = some .PATH_EXPR := by decide +kernel
    rw [h1] at h2
    cases h2
  · rintro ⟨-, m, -, h⟩
    cases h
  · refine .pubFriend ⟨_, rfl, rfl, fun c hc => ?_⟩
    obtain ⟨i, hi, rfl⟩ := List.mem_iff_getElem.1 hc
    have h4 : i < 4 := hi
    rcases i with _ | _ | _ | _ | i
    · rfl
    · rfl
    · rfl
    · rfl
    · omega

/-- A `use` in main code finds a test-only structure of another module, which the rules do not allow there. -/
theorem C41_use_fails : ∃ (w : World) (item ctx : Place) (ns : Ns), item.In (w.tree item.file) ∧ ctx.In (w.tree ctx.file) ∧
    isMslContext ctx.ancestors = false ∧ Nearest (item.elem :: item.anc) .Test ∧ Nearest (ctx.elem :: ctx.anc) .Main ∧
    isVisible w ns none (some item) ctx = none ∧ ∀ v, ¬ Allowed w ns none item ctx v := by
  refine ⟨exWorld, exPlace 0 exItems [0, 0], exPlace 1 exUses [0, 0, 1, 0], .TYPE, ?_, ?_, by decide +kernel, ?_, ?_, by decide +kernel, ?_⟩
  · exact exPlace_in 0 exItems _
  · exact exPlace_in 1 exUses _
  · have h := nearest_scopeOf ((exPlace 0 exItems [0, 0]).elem :: (exPlace 0 exItems [0, 0]).anc)
    have e : scopeOf .Main ((exPlace 0 exItems [0, 0]).elem :: (exPlace 0 exItems [0, 0]).anc) = .Test := by decide +kernel
    rwa [e] at h
  · have h := nearest_scopeOf ((exPlace 1 exUses [0, 0, 1, 0]).elem :: (exPlace 1 exUses [0, 0, 1, 0]).anc)
    have e : scopeOf .Main ((exPlace 1 exUses [0, 0, 1, 0]).elem :: (exPlace 1 exUses [0, 0, 1, 0]).anc) = .Main := by decide +kernel
    rwa [e] at h
  · rintro v ⟨⟨s, h1, h2⟩, -⟩
    have e1 : scopeAt exWorld 0 (some (exPlace 0 exItems [0, 0]).elem) = .Test := by decide +kernel
    have e2 : scopeAt exWorld 1 (exPlace 1 exUses [0, 0, 1, 0]).node = .Main := by decide +kernel
    have e3 := (entryScope_iff _ _ _ _).1 h1
    simp only at e3
    rw [show (exPlace 0 exItems [0, 0]).file = 0 from rfl, e1] at e3
    rw [show (exPlace 1 exUses [0, 0, 1, 0]).file = 1 from rfl, e2, ← e3] at h2
    rcases h2 with h2 | h2 <;> cases h2

end Verif.Nameres
