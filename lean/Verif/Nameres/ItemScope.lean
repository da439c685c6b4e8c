import Verif.Syntax.Tree

/-! Test-only and verify-only code: the scope that every node of a file gets (lang/src/item_scope.rs). -/

namespace Verif.Nameres
open Verif.Parser (Green)
open Verif.Syntax

/-- item_scope.rs:15–19. -/
inductive ItemScope where
  | Main | Test | Verify
  deriving DecidableEq, Repr

/-- `node.children().filter(kind)`: the child nodes of a kind (`support::children`). -/
def nodesOf (k : SyntaxKind) (g : Green) : List Green := g.children.filter fun c => !c.isTok && decide (c.kind = k)

/-- syntax/src/ast/generated/nodes.rs:9537–9559 (`AnyHasAttrs`). -/
def attrKinds : List SyntaxKind :=
  [.CONST, .ENUM, .FRIEND, .FUN, .GLOBAL_VARIABLE_DECL, .ITEM_SPEC, .LEMMA, .MODULE, .MODULE_SPEC, .NAMED_FIELD, .SCHEMA,
    .SCHEMA_FIELD, .SCRIPT, .SPEC_FUN, .SPEC_INLINE_FUN, .STRUCT, .TUPLE_FIELD, .USE_STMT, .VARIANT]

/-- item_scope.rs:103. -/
def specKinds : List SyntaxKind :=
  [.SCHEMA, .SPEC_FUN, .SPEC_INLINE_FUN, .ITEM_SPEC, .MODULE_SPEC, .SPEC_BLOCK_EXPR, .LEMMA]

/-- syntax/src/ast/node_ext/attr_item.rs:31–34: the text of the first path of an attribute item. -/
def pathText (item : Green) : Option (List Char) := (nodesOf .PATH item).head?.map Green.text

/-- syntax/src/ast/traits.rs:58–64 and item_scope.rs:118–121: the paths of all attribute items. -/
def attrTexts (g : Green) : List (List Char) := ((nodesOf .ATTR g).flatMap (nodesOf .ATTR_ITEM)).filterMap pathText

/-- item_scope.rs:117–132. -/
def scopeFromAttributes (g : Green) : Option ItemScope :=
  if (attrTexts g).isEmpty then none
  else if (attrTexts g).contains "test_only".toList || (attrTexts g).contains "test".toList then some .Test
  else if (attrTexts g).contains "verify_only".toList then some .Verify
  else none

/-- item_scope.rs:99–115. -/
def nodeItemScope (g : Green) : ItemScope :=
  if specKinds.contains g.kind then .Verify
  else if attrKinds.contains g.kind then
    match scopeFromAttributes g with
    | some s => if s ≠ .Main then s else .Main
    | none => .Main
  else .Main

/-- `rowan::ast::SyntaxNodePtr`: the kind and the range of a node. -/
structure Ptr where
  kind : SyntaxKind
  start : Nat
  stop : Nat
  deriving DecidableEq, Repr

def Elem.ptr (e : Elem) : Ptr := ⟨e.kind, e.start, e.stop⟩

/-- `rowan::WalkEvent` for nodes. -/
inductive Walk where
  | enter (e : Elem)
  | leave (e : Elem)

mutual
/-- `preorder_with_tokens()`, with the events of tokens, which item_scope.rs:93 ignores, left out. -/
def walk (path : List Nat) (start : Nat) : Green → List Walk
  | .tok _ _ => []
  | .node k cs => .enter ⟨path, start, .node k cs⟩ :: (walks path 0 start cs ++ [.leave ⟨path, start, .node k cs⟩])
/-- The events of consecutive children. -/
def walks (path : List Nat) (i start : Nat) : List Green → List Walk
  | [] => []
  | g :: gs => walk (i :: path) start g ++ walks path (i + 1) (start + g.len) gs
end

/-- The map and the stack (item_scope.rs:63–64). The map has the latest entry first; the stack its top first. -/
structure Scopes where
  map : List (Ptr × ItemScope) := []
  stack : List (Elem × ItemScope) := []

/-- item_scope.rs:76. -/
def Scopes.last (s : Scopes) : ItemScope := (s.stack.head?.map Prod.snd).getD .Main

/-- item_scope.rs:67–95. The comparison of nodes is the one of their paths; `rowan` compares the green node and the offset,
which is the same for nodes that are not empty. -/
def Scopes.step (s : Scopes) : Walk → Scopes
  | .enter e =>
    match nodeItemScope e.green with
    | .Main => { s with map := (Elem.ptr e, s.last) :: s.map }
    | sc => { map := (Elem.ptr e, sc) :: s.map, stack := (e, sc) :: s.stack }
  | .leave e =>
    match s.stack with
    | [] => s
    | (l, _) :: rest => if l.path = e.path then { s with stack := rest } else s

/-- item_scope.rs:59–97. -/
def itemScopes (g : Green) : List (Ptr × ItemScope) := ((walk [] 0 g).foldl Scopes.step {}).map

/-- hir_db.rs:297–303. -/
def itemScope (g : Green) (p : Ptr) : ItemScope := ((itemScopes g).lookup p).getD .Main

/-- item_scope.rs:50–55. -/
def ItemScope.shrink (s adj : ItemScope) : ItemScope := if s = .Main then adj else s

/-! ### Specification -/

/-- The node has an attribute with that path. -/
def HasAttr (g : Green) (name : String) : Prop :=
  ∃ a ∈ g.children, a.isTok = false ∧ a.kind = .ATTR ∧ ∃ i ∈ a.children, i.isTok = false ∧ i.kind = .ATTR_ITEM ∧
    ∃ p, (nodesOf .PATH i).head? = some p ∧ p.text = name.toList

/-- The kinds that are verification code by themselves. -/
def SpecNode (g : Green) : Prop :=
  g.kind = .SCHEMA ∨ g.kind = .SPEC_FUN ∨ g.kind = .SPEC_INLINE_FUN ∨ g.kind = .ITEM_SPEC ∨ g.kind = .MODULE_SPEC ∨
    g.kind = .SPEC_BLOCK_EXPR ∨ g.kind = .LEMMA

/-- The node is an item that may have attributes (an item of a file or module, a field or a variant). -/
def Attributed (g : Green) : Prop :=
  match g.kind with
  | .MODULE | .SCRIPT | .FRIEND | .USE_STMT | .CONST | .FUN | .STRUCT | .ENUM | .VARIANT | .NAMED_FIELD | .TUPLE_FIELD
  | .SCHEMA | .SCHEMA_FIELD | .SPEC_FUN | .SPEC_INLINE_FUN | .ITEM_SPEC | .MODULE_SPEC | .LEMMA | .GLOBAL_VARIABLE_DECL => True
  | _ => False

/-- A node is marked test-only by an attribute, unless it is verification code; verify-only if it is that or by an attribute. -/
def Marked (g : Green) : ItemScope → Prop
  | .Test => ¬ SpecNode g ∧ Attributed g ∧ (HasAttr g "test_only" ∨ HasAttr g "test")
  | .Verify => SpecNode g ∨ (Attributed g ∧ HasAttr g "verify_only" ∧ ¬ HasAttr g "test_only" ∧ ¬ HasAttr g "test")
  | .Main => False

/-- The scope given by a list of nodes from the inside out. -/
inductive Nearest : List Elem → ItemScope → Prop where
  | none : Nearest [] .Main
  | here {e : Elem} {l : List Elem} {s : ItemScope} : Marked e.green s → Nearest (e :: l) s
  | outer {e : Elem} {l : List Elem} {s : ItemScope} : (∀ t, ¬ Marked e.green t) → Nearest l s → Nearest (e :: l) s

theorem mem_nodesOf {k : SyntaxKind} {g c : Green} : c ∈ nodesOf k g ↔ c ∈ g.children ∧ c.isTok = false ∧ c.kind = k := by
  simp [nodesOf]

theorem mem_attrTexts (g : Green) (name : String) : name.toList ∈ attrTexts g ↔ HasAttr g name := by
  simp only [attrTexts, List.mem_filterMap, List.mem_flatMap, mem_nodesOf, HasAttr, pathText, Option.map_eq_some_iff]
  constructor
  · rintro ⟨i, ⟨a, ⟨h1, h2, h3⟩, h4, h5, h6⟩, p, h7, h8⟩
    exact ⟨a, h1, h2, h3, i, h4, h5, h6, p, h7, h8⟩
  · rintro ⟨a, h1, h2, h3, i, h4, h5, h6, p, h7, h8⟩
    exact ⟨i, ⟨a, ⟨h1, h2, h3⟩, h4, h5, h6⟩, p, h7, h8⟩

theorem specNode_iff (g : Green) : specKinds.contains g.kind = true ↔ SpecNode g := by
  simp [specKinds, SpecNode]

theorem attributed_iff (g : Green) : attrKinds.contains g.kind = true ↔ Attributed g := by
  unfold Attributed
  generalize g.kind = k
  cases k <;> decide +kernel

theorem scopeFromAttributes_eq (g : Green) : scopeFromAttributes g =
    if "test_only".toList ∈ attrTexts g ∨ "test".toList ∈ attrTexts g then some .Test
    else if "verify_only".toList ∈ attrTexts g then some .Verify else none := by
  unfold scopeFromAttributes
  by_cases h : (attrTexts g).isEmpty
  · rw [if_pos h]
    rw [List.isEmpty_iff] at h
    rw [h]
    rfl
  · rw [if_neg h]
    simp only [List.contains_iff_mem, Bool.or_eq_true]

/-- Which nodes are marked. -/
theorem C42_marked (g : Green) (s : ItemScope) (hs : s ≠ .Main) : nodeItemScope g = s ↔ Marked g s := by
  have key : nodeItemScope g = if specKinds.contains g.kind then .Verify
      else if attrKinds.contains g.kind then (scopeFromAttributes g).getD .Main else .Main := by
    unfold nodeItemScope
    split
    · rfl
    · split
      · split
        · rename_i s h
          rw [h]
          cases s <;> rfl
        · rename_i h; rw [h]; rfl
      · rfl
  rw [key, scopeFromAttributes_eq]
  have a1 := or_congr (mem_attrTexts g "test_only") (mem_attrTexts g "test")
  have a2 := mem_attrTexts g "verify_only"
  by_cases h1 : specKinds.contains g.kind
  · have h1' := (specNode_iff g).1 h1
    rw [if_pos h1]
    clear a1 a2
    cases s <;> simp_all [Marked]
  · have h1' := fun h => h1 ((specNode_iff g).2 h)
    rw [if_neg h1]
    by_cases h2 : attrKinds.contains g.kind
    · have h2' := (attributed_iff g).1 h2
      rw [if_pos h2]
      by_cases h3 : HasAttr g "test_only" ∨ HasAttr g "test"
      · rw [if_pos (a1.2 h3)]
        cases s
        · exact absurd rfl hs
        · simp only [Marked, Option.getD_some, true_iff]
          exact ⟨h1', h2', h3⟩
        · simp only [Marked, Option.getD_some, reduceCtorEq, false_iff]
          rintro (h | ⟨-, -, h4, h5⟩)
          · exact h1' h
          · exact h3.elim h4 h5
      · rw [if_neg fun h => h3 (a1.1 h)]
        have h4 := not_or.1 h3
        by_cases h5 : HasAttr g "verify_only"
        · rw [if_pos (a2.2 h5)]
          clear a1 a2
          cases s <;> simp_all [Marked]
        · rw [if_neg fun h => h5 (a2.1 h)]
          clear a1 a2
          cases s <;> simp_all [Marked]
    · have h2' : ¬ Attributed g := fun h => h2 ((attributed_iff g).2 h)
      rw [if_neg h2]
      clear a1 a2
      cases s <;> simp_all [Marked]

/-! ### The pass as a recursive function -/

mutual
/-- The entries that a subtree adds, in order, when the scope `inh` is inherited. -/
def assigned (inh : ItemScope) (path : List Nat) (start : Nat) : Green → List (Ptr × ItemScope)
  | .tok _ _ => []
  | .node k cs =>
    (Elem.ptr ⟨path, start, .node k cs⟩, (nodeItemScope (.node k cs)).shrink inh) ::
      assigneds ((nodeItemScope (.node k cs)).shrink inh) path 0 start cs
def assigneds (inh : ItemScope) (path : List Nat) (i start : Nat) : List Green → List (Ptr × ItemScope)
  | [] => []
  | g :: gs => assigned inh (i :: path) start g ++ assigneds inh path (i + 1) (start + g.len) gs
end

mutual
theorem foldl_walk (s : Scopes) (path : List Nat) (start : Nat) (g : Green) (h : ∀ x ∈ s.stack, x.1.path.length < path.length) :
    (walk path start g).foldl Scopes.step s = { map := (assigned s.last path start g).reverse ++ s.map, stack := s.stack } := by
  cases g with
  | tok k t => simp [walk, assigned]
  | node k cs =>
    rw [walk, assigned]
    simp only [List.foldl_cons, List.foldl_append, List.foldl_nil]
    cases hn : nodeItemScope (.node k cs) with
    | Main =>
      have e1 : s.step (.enter ⟨path, start, .node k cs⟩) =
          { s with map := (Elem.ptr ⟨path, start, .node k cs⟩, s.last) :: s.map } := by
        simp only [Scopes.step]; rw [hn]
      rw [e1, foldl_walks { s with map := (Elem.ptr ⟨path, start, .node k cs⟩, s.last) :: s.map } path 0 start cs (fun x hx => Nat.le_of_lt (h x hx))]
      have e2 : ItemScope.shrink .Main s.last = s.last := rfl
      rw [e2]
      simp only [Scopes.step, Scopes.last]
      split
      · rename_i heq
        simp [heq]
      · rename_i l x rest heq
        have hl := h (l, x) (by rw [heq]; simp)
        rw [if_neg (fun hp => by simp only at hl; rw [hp] at hl; exact Nat.lt_irrefl _ hl)]
        simp
    | Test =>
      have e1 : s.step (.enter ⟨path, start, .node k cs⟩) =
          { map := (Elem.ptr ⟨path, start, .node k cs⟩, .Test) :: s.map, stack := (⟨path, start, .node k cs⟩, .Test) :: s.stack } := by
        simp only [Scopes.step]; rw [hn]
      rw [e1, foldl_walks _ path 0 start cs (by
        intro x hx
        rcases List.mem_cons.1 hx with rfl | hx
        · exact Nat.le_refl _
        · exact Nat.le_of_lt (h x hx))]
      have e2 : ItemScope.shrink .Test s.last = .Test := rfl
      rw [e2]
      simp [Scopes.step, Scopes.last]
    | Verify =>
      have e1 : s.step (.enter ⟨path, start, .node k cs⟩) =
          { map := (Elem.ptr ⟨path, start, .node k cs⟩, .Verify) :: s.map, stack := (⟨path, start, .node k cs⟩, .Verify) :: s.stack } := by
        simp only [Scopes.step]; rw [hn]
      rw [e1, foldl_walks _ path 0 start cs (by
        intro x hx
        rcases List.mem_cons.1 hx with rfl | hx
        · exact Nat.le_refl _
        · exact Nat.le_of_lt (h x hx))]
      have e2 : ItemScope.shrink .Verify s.last = .Verify := rfl
      rw [e2]
      simp [Scopes.step, Scopes.last]
theorem foldl_walks (s : Scopes) (path : List Nat) (i start : Nat) (gs : List Green)
    (h : ∀ x ∈ s.stack, x.1.path.length ≤ path.length) :
    (walks path i start gs).foldl Scopes.step s =
      { map := (assigneds s.last path i start gs).reverse ++ s.map, stack := s.stack } := by
  cases gs with
  | nil => simp [walks, assigneds]
  | cons g gs =>
    rw [walks, assigneds, List.foldl_append,
      foldl_walk s (i :: path) start g (by intro x hx; have := h x hx; simp only [List.length_cons]; omega),
      foldl_walks { map := (assigned s.last (i :: path) start g).reverse ++ s.map, stack := s.stack } path (i + 1)
        (start + g.len) gs h]
    simp [Scopes.last]
end

theorem itemScopes_eq (g : Green) : itemScopes g = (assigned .Main [] 0 g).reverse := by
  rw [itemScopes, foldl_walk {} [] 0 g (by simp)]
  simp [Scopes.last]

theorem assigneds_eq (inh : ItemScope) (path : List Nat) (i start : Nat) (gs : List Green) :
    assigneds inh path i start gs = (placed path i start gs).flatMap fun e => assigned inh e.path e.start e.green := by
  induction gs generalizing i start with
  | nil => rfl
  | cons g gs ih => rw [assigneds, placed, List.flatMap_cons, ih]

/-- The scope seen from below a chain of nodes, when `inh` holds above. -/
def scopeOf (inh : ItemScope) : List Elem → ItemScope
  | [] => inh
  | e :: l => (nodeItemScope e.green).shrink (scopeOf inh l)

theorem scopeOf_append (inh : ItemScope) (l : List Elem) (e : Elem) :
    scopeOf inh (l ++ [e]) = scopeOf ((nodeItemScope e.green).shrink inh) l := by
  induction l with
  | nil => rfl
  | cons x l ih => simp only [List.cons_append, scopeOf, ih]

theorem mem_assigned (inh : ItemScope) (e : Elem) (p : Ptr) (s : ItemScope) :
    (p, s) ∈ assigned inh e.path e.start e.green ↔
      ∃ x l, Up e (x :: l) ∧ x.green.isTok = false ∧ Elem.ptr x = p ∧ s = scopeOf inh (x :: l) := by
  obtain ⟨path, start, g⟩ := e
  induction g using Green.induction generalizing inh path start with
  | h g ih =>
  cases g with
  | tok k t =>
    constructor
    · intro h; simp [assigned] at h
    · rintro ⟨x, l, hu, hx, -⟩
      rcases hu.top_cases with h | ⟨c, hc, -⟩
      · simp only [List.cons.injEq] at h; rw [h.1] at hx; simp [Green.isTok] at hx
      · have := (Elem.mem_children hc).1; simp [Green.children] at this
  | node k cs =>
    simp only [assigned, List.mem_cons, assigneds_eq, List.mem_flatMap]
    constructor
    · rintro (h | ⟨c, hc, h⟩)
      · obtain ⟨rfl, rfl⟩ := Prod.mk.inj h
        exact ⟨_, [], .top, rfl, rfl, rfl⟩
      · have hc' : c ∈ (⟨path, start, .node k cs⟩ : Elem).children := hc
        obtain ⟨x, l, hu, hx, hp, hs⟩ := (ih c.green (Elem.mem_children hc').1 _ c.path c.start).1 h
        have hsn := hu.snoc hc'
        rw [List.cons_append] at hsn
        refine ⟨x, l ++ [⟨path, start, .node k cs⟩], hsn, hx, hp, ?_⟩
        rw [← List.cons_append, scopeOf_append]
        exact hs
    · rintro ⟨x, l, hu, hx, hp, hs⟩
      rcases hu.top_cases with h | ⟨c, hc, l', hu', heq⟩
      · simp only [List.cons.injEq] at h
        obtain ⟨rfl, rfl⟩ := h
        left
        rw [← hp, hs]; rfl
      · right
        refine ⟨c, hc, ?_⟩
        cases l' with
        | nil => cases hu'
        | cons y ys =>
          simp only [List.cons_append, List.cons.injEq] at heq
          obtain ⟨rfl, rfl⟩ := heq
          refine (ih c.green (Elem.mem_children hc).1 _ c.path c.start).2 ⟨x, ys, hu', hx, hp, ?_⟩
          rw [hs, ← List.cons_append, scopeOf_append]

theorem nearest_scopeOf (l : List Elem) : Nearest l (scopeOf .Main l) := by
  induction l with
  | nil => exact .none
  | cons e l ih =>
    rw [scopeOf]
    by_cases h : nodeItemScope e.green = .Main
    · rw [h]
      refine .outer (fun t ht => ?_) ih
      cases t with
      | Main => exact ht
      | Test => rw [(C42_marked e.green .Test (by decide)).2 ht] at h; cases h
      | Verify => rw [(C42_marked e.green .Verify (by decide)).2 ht] at h; cases h
    · rw [ItemScope.shrink, if_neg h]
      exact .here ((C42_marked _ _ h).1 rfl)

theorem nearest_unique {l : List Elem} {s t : ItemScope} (h1 : Nearest l s) (h2 : Nearest l t) : s = t := by
  induction h1 with
  | none => cases h2; rfl
  | @here e l s hm =>
    cases h2 with
    | here hm' =>
      have hs : s ≠ .Main := by rintro rfl; exact hm
      have ht : t ≠ .Main := by rintro rfl; exact hm'
      rw [← (C42_marked _ _ hs).2 hm, ← (C42_marked _ _ ht).2 hm']
    | outer hn _ => exact absurd hm (hn s)
  | @outer e l s hn _ ih =>
    cases h2 with
    | here hm => exact absurd hm (hn t)
    | outer _ h => exact ih h

theorem lookup_mem {p : Ptr} {s : ItemScope} {l : List (Ptr × ItemScope)} (h : l.lookup p = some s) : (p, s) ∈ l := by
  induction l with
  | nil => cases h
  | cons x l ih =>
    obtain ⟨q, t⟩ := x
    rw [List.lookup_cons] at h
    split at h
    · rename_i hq
      cases h
      rw [eq_of_beq hq]; simp
    · exact List.mem_cons_of_mem _ (ih h)

theorem lookup_of_mem {p : Ptr} {s : ItemScope} {l : List (Ptr × ItemScope)} (h : (p, s) ∈ l) : ∃ t, l.lookup p = some t := by
  induction l with
  | nil => cases h
  | cons x l ih =>
    obtain ⟨q, t⟩ := x
    rw [List.lookup_cons]
    split
    · exact ⟨_, rfl⟩
    · rename_i hq
      rcases List.mem_cons.1 h with h | h
      · cases h; simp at hq
      · exact ih h

/-- The recorded scope of every node is that of the nearest marked node around a node with the same kind and range. -/
theorem C42_some (g : Green) (x : Elem) (l : List Elem) (h : Chain g (x :: l)) (hx : x.green.isTok = false) :
    ∃ y m, Chain g (y :: m) ∧ y.green.isTok = false ∧ Elem.ptr y = Elem.ptr x ∧ Nearest (y :: m) (itemScope g (Elem.ptr x)) := by
  have h1 : (Elem.ptr x, scopeOf .Main (x :: l)) ∈ itemScopes g := by
    rw [itemScopes_eq, List.mem_reverse]
    exact (mem_assigned .Main (Elem.root g) _ _).2 ⟨x, l, h, hx, rfl, rfl⟩
  obtain ⟨t, ht⟩ := lookup_of_mem h1
  have h2 := lookup_mem ht
  rw [itemScopes_eq, List.mem_reverse] at h2
  obtain ⟨y, m, hu, hy, hp, hs⟩ := (mem_assigned .Main (Elem.root g) _ _).1 h2
  refine ⟨y, m, hu, hy, hp, ?_⟩
  rw [itemScope, ht, hs]
  exact nearest_scopeOf _

/-- No other node of the tree has the kind and the range of `x`. -/
def OnlyPtr (g : Green) (x : Elem) (l : List Elem) : Prop :=
  ∀ y m, Chain g (y :: m) → y.green.isTok = false → Elem.ptr y = Elem.ptr x → y :: m = x :: l

/-- The recorded scope of a node is that of the nearest marked node around it, the node included. Missing from the statement:
nodes that share their kind and range with another node of the file (see `C42_collision_fails`). -/
theorem C42_nearest_partial (g : Green) (x : Elem) (l : List Elem) (h : Chain g (x :: l)) (hx : x.green.isTok = false)
    (ho : OnlyPtr g x l) (s : ItemScope) : itemScope g (Elem.ptr x) = s ↔ Nearest (x :: l) s := by
  obtain ⟨y, m, h1, h2, h3, h4⟩ := C42_some g x l h hx
  have := ho y m h1 h2 h3
  rw [this] at h4
  exact ⟨fun hs => hs ▸ h4, fun hs => nearest_unique h4 hs⟩

/-- A node of a file that is not recorded is main code: there is none. -/
theorem C42_recorded (g : Green) (p : Ptr) : (∃ s, (itemScopes g).lookup p = some s) ↔
    ∃ x l, Chain g (x :: l) ∧ x.green.isTok = false ∧ Elem.ptr x = p := by
  constructor
  · rintro ⟨s, hs⟩
    have h2 := lookup_mem hs
    rw [itemScopes_eq, List.mem_reverse] at h2
    obtain ⟨y, m, hu, hy, hp, -⟩ := (mem_assigned .Main (Elem.root g) _ _).1 h2
    exact ⟨y, m, hu, hy, hp⟩
  · rintro ⟨x, l, h, hx, rfl⟩
    refine lookup_of_mem (s := scopeOf .Main (x :: l)) ?_
    rw [itemScopes_eq, List.mem_reverse]
    exact (mem_assigned .Main (Elem.root g) _ _).2 ⟨x, l, h, hx, rfl, rfl⟩

/-! ### Examples -/

/-- `#[test_only] module M {fun f()}` with the attribute first. -/
def exFile : Green :=
  .node .SOURCE_FILE [
    .node .MODULE [
      .node .ATTR [.tok .POUND ['#'], .node .ATTR_ITEM [.node .PATH [.tok .IDENT "test_only".toList]]],
      .node .FUN [.tok .FUN_KW "fun".toList, .node .NAME [.tok .IDENT ['f']],
        .node .SPEC_BLOCK_EXPR [.tok .SPEC_KW "spec".toList]],
      .node .CONST [.tok .CONST_KW "const".toList]],
    .node .MODULE [.tok .MODULE_KW "module".toList]]

example : (itemScopes exFile).reverse.map (fun x => (x.1.kind, x.2)) =
    [(.SOURCE_FILE, .Main), (.MODULE, .Test), (.ATTR, .Test), (.ATTR_ITEM, .Test), (.PATH, .Test), (.FUN, .Test), (.NAME, .Test),
      (.SPEC_BLOCK_EXPR, .Verify), (.CONST, .Test), (.MODULE, .Main)] := by decide +kernel

/-- A marked node. -/
example : Marked (.node .SPEC_FUN []) .Verify := .inl (by simp [SpecNode, Green.kind])

/-- Two empty nodes of one kind at one place, one of them inside a specification. -/
def exCollision : Green :=
  .node .SOURCE_FILE [.node .ITEM_SPEC [.tok .SPEC_KW "spec".toList, .node .ERROR []], .node .ERROR []]

/-- The hypotheses of `C42_nearest_partial` are met by a node of a file. -/
example : ∃ x l, Chain exCollision (x :: l) ∧ x.green.isTok = false ∧ OnlyPtr exCollision x l ∧ x.kind = .ITEM_SPEC := by
  refine ⟨⟨[0], 0, .node .ITEM_SPEC [.tok .SPEC_KW "spec".toList, .node .ERROR []]⟩, [Elem.root exCollision],
    .child .top (by simp [Elem.children, Elem.root, exCollision, Green.children, placed]), rfl, ?_, rfl⟩
  intro y m hu hy hp
  rcases hu.top_cases with h | ⟨c, hc, l', hu', heq⟩
  · cases h
    have := congrArg Ptr.kind hp
    cases this
  · have hk : y.kind = .ITEM_SPEC := congrArg Ptr.kind hp
    simp only [Elem.children, Elem.root, exCollision, Green.children, placed, List.mem_cons, List.not_mem_nil, or_false] at hc
    rcases hc with rfl | rfl
    · rcases hu'.top_cases with h | ⟨d, hd, l'', hu'', heq'⟩
      · subst h
        simp only [List.cons_append, List.nil_append, List.cons.injEq] at heq
        obtain ⟨rfl, rfl⟩ := heq
        rfl
      · simp only [Elem.children, Green.children, placed, List.mem_cons, List.not_mem_nil, or_false] at hd
        exfalso
        rcases hd with rfl | rfl
        · rcases hu''.top_cases with h | ⟨e, he, -⟩
          · subst h; subst heq'
            simp only [List.cons_append, List.cons.injEq] at heq
            obtain ⟨rfl, -⟩ := heq
            cases hk
          · cases he
        · rcases hu''.top_cases with h | ⟨e, he, -⟩
          · subst h; subst heq'
            simp only [List.cons_append, List.cons.injEq] at heq
            obtain ⟨rfl, -⟩ := heq
            cases hk
          · cases he
    · exfalso
      rcases hu'.top_cases with h | ⟨e, he, -⟩
      · subst h
        simp only [List.cons_append, List.cons.injEq] at heq
        obtain ⟨rfl, -⟩ := heq
        cases hk
      · cases he

/-- The scope of a node that shares kind and range with another one may be the scope of that one. -/
theorem C42_collision_fails : ∃ g x l, Chain g (x :: l) ∧ x.green.isTok = false ∧ Nearest (x :: l) .Verify ∧
    itemScope g (Elem.ptr x) = .Main := by
  refine ⟨exCollision, ⟨[1, 0], 4, .node .ERROR []⟩,
    [⟨[0], 0, .node .ITEM_SPEC [.tok .SPEC_KW "spec".toList, .node .ERROR []]⟩, Elem.root exCollision],
    .child (.child .top ?_) ?_, rfl, ?_, by decide +kernel⟩
  · simp [Elem.children, Elem.root, exCollision, Green.children, placed]
  · have : (Green.tok .SPEC_KW "spec".toList).len = 4 := by decide +kernel
    simp only [Elem.children, Green.children, placed, this]
    simp
  · refine .outer ?_ (.here (.inl (by simp [SpecNode, Green.kind])))
    intro t ht
    cases t
    · exact ht
    · have h := ht.2.1; revert h; simp [Attributed, Green.kind]
    · rcases ht with h | ⟨h, -⟩
      · revert h; simp [SpecNode, Green.kind]
      · revert h; simp [Attributed, Green.kind]

end Verif.Nameres
