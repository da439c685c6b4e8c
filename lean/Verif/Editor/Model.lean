import Verif.Syntax.Tree
import Verif.Base.StableSort
import Mathlib.Data.Prod.Lex

/-! Model of the syntax editor: syntax/src/syntax_editor.rs and syntax/src/syntax_editor/edit_algo.rs.

An element of the tree that is edited is given as in `rowan`, with its ancestors: the list of the element and its ancestors up
to the root. New elements are green trees; they are not edited themselves. `Change::ReplaceAll` is not in the model, since
nothing records it. Mappings (syntax_editor/mapping.rs) are not in the model either: a change inside of an element that is
replaced panics here, as it does in the code when there is no mapping for the new element. -/

namespace Verif.Editor
open Verif Verif.Syntax
open Verif.Parser (Green)

/-- An element and its ancestors up to the root. -/
abbrev Site := List Elem

/-- The element. -/
def Site.elem (s : Site) : Elem := s.headD ⟨[], 0, .node .ERROR []⟩

/-- The identity of the element. -/
def Site.path (s : Site) : List Nat := s.elem.path

/-- `PositionRepr` (syntax_editor.rs:183–187). -/
inductive Position where
  | first (parent : Site)
  | after (child : Site)

/-- `Change` (syntax_editor.rs:222–235); inserting one element is inserting a list of one, and `replace` with `none` deletes. -/
inductive Change where
  | insert (p : Position) (new : List Green)
  | replace (old : Site) (new : Option Green)
  | replaceMany (old : Site) (new : List Green)

/-- The offset of a position (syntax_editor.rs:240–246). The first child of a node starts where the node starts; a node without
children, for which the code panics, is not told apart. -/
def Position.offset : Position → Nat
  | .first p => p.elem.start
  | .after c => c.elem.stop

/-- `target_range` (syntax_editor.rs:238–250): the start and the end. -/
def Change.range : Change → Nat × Nat
  | .insert p _ => (p.offset, p.offset)
  | .replace e _ | .replaceMany e _ => (e.elem.start, e.elem.stop)

/-- `ancestors().count()` of `target_parent` (syntax_editor.rs:252–261, edit_algo.rs:41–45); the root stands for its own parent. -/
def Change.depth : Change → Nat
  | .insert (.first p) _ => p.length
  | .insert (.after c) _ => c.length - 1
  | .replace e _ | .replaceMany e _ => if e.length ≤ 1 then e.length else e.length - 1

/-- `change_kind` (syntax_editor.rs:263–277), as a number: insertions come before replacements. -/
def Change.rank : Change → Nat
  | .insert _ _ => 0
  | .replace _ _ | .replaceMany _ _ => 2

/-- What `sort_by` compares (edit_algo.rs:51–66). Changes with the same parent have the same depth, so the comparison is by
the start, the depth and the kind. -/
def Change.key (c : Change) : Nat ×ₗ Nat ×ₗ Nat := toLex (c.range.1, toLex (c.depth, c.rank))

/-- edit_algo.rs:68–84. -/
def disjointReplaces : List Change → Bool
  | [] => true
  | [_] => true
  | l :: r :: rest =>
    (!(l.rank == 2 && r.rank == 2) || l.depth != r.depth || decide (l.range.2 ≤ r.range.1)) && disjointReplaces (r :: rest)

/-- The range of the node that is replaced by a change, if it is a node (edit_algo.rs:136–145). -/
def Change.covers : Change → Option (Nat × Nat)
  | .insert _ _ => none
  | .replace e _ | .replaceMany e _ => if e.elem.green.isTok then none else some (e.elem.start, e.elem.stop)

/-- `contains_range`. -/
def covered (outer : Option (Nat × Nat)) (r : Nat × Nat) : Bool :=
  match outer with
  | none => false
  | some o => decide (o.1 ≤ r.1) && decide (r.2 ≤ o.2)

/-- The loop of edit_algo.rs:109–146 up to the first change that depends on another one: until then `changed_ancestors` has at
most one element. -/
def dependent : Option (Nat × Nat) → List Change → Bool
  | _, [] => false
  | outer, c :: cs => covered outer c.range || dependent c.covers cs

/-- `SyntaxNodePtr::to_node` of `rowan`: the first node with the kind and the range on the way from the root. For an empty node
`rowan` may take another way. -/
def toNode (s : Site) : Option Elem :=
  s.reverse.find? fun a => decide (a.kind = s.elem.kind) && decide (a.start = s.elem.start) && decide (a.stop = s.elem.stop)

/-- `make_element_mut` and `make_syntax_mut` (edit_algo.rs:356–369): the identity of the element of the copy. -/
def target (s : Site) : Option (List Nat) :=
  if s.elem.green.isTok then
    (toNode s.tail).bind fun p => match s.path with
      | [] => none
      | i :: _ => p.children[i]?.map Elem.path
  else (toNode s).map Elem.path

/-- A tree that is changed in place (`clone_for_update`): what comes from the old tree keeps its identity. -/
inductive Mut where
  | node (id : Option (List Nat)) (k : SyntaxKind) (cs : List Mut)
  | tok (id : Option (List Nat)) (k : SyntaxKind) (t : List Char)

def Mut.id : Mut → Option (List Nat)
  | .node id _ _ => id
  | .tok id _ _ => id

mutual
/-- A copy of an element with the given path. -/
def clone (path : List Nat) : Green → Mut
  | .node k cs => .node (some path) k (cloneAll path 0 cs)
  | .tok k t => .tok (some path) k t
def cloneAll (path : List Nat) (i : Nat) : List Green → List Mut
  | [] => []
  | g :: gs => clone (i :: path) g :: cloneAll path (i + 1) gs
end

mutual
/-- A new element. -/
def fresh : Green → Mut
  | .node k cs => .node none k (freshAll cs)
  | .tok k t => .tok none k t
def freshAll : List Green → List Mut
  | [] => []
  | g :: gs => fresh g :: freshAll gs
end

mutual
/-- The tree without identities. -/
def Mut.green : Mut → Green
  | .node _ k cs => .node k (Mut.greens cs)
  | .tok _ k t => .tok k t
def Mut.greens : List Mut → List Green
  | [] => []
  | m :: ms => m.green :: Mut.greens ms
end

mutual
/-- Is the element below the root of the tree? Otherwise its `parent()` is none. -/
def Mut.has (q : List Nat) : Mut → Bool
  | .node _ _ cs => Mut.hasIn q cs
  | .tok _ _ _ => false
def Mut.hasIn (q : List Nat) : List Mut → Bool
  | [] => false
  | m :: ms => m.id == some q || m.has q || Mut.hasIn q ms
end

mutual
/-- `splice_children` of the parent at the element: the element gives way to others. -/
def Mut.splice (q : List Nat) (f : Mut → List Mut) : Mut → Mut
  | .node id k cs => .node id k (Mut.spliceIn q f cs)
  | .tok id k t => .tok id k t
def Mut.spliceIn (q : List Nat) (f : Mut → List Mut) : List Mut → List Mut
  | [] => []
  | m :: ms => (if m.id = some q then f m else [m.splice q f]) ++ Mut.spliceIn q f ms
end

mutual
/-- `splice_children(0..0, …)` of the node. -/
def Mut.prepend (q : List Nat) (new : List Mut) : Mut → Mut
  | .node id k cs => .node id k ((if id = some q then new else []) ++ Mut.prependIn q new cs)
  | .tok id k t => .tok id k t
def Mut.prependIn (q : List Nat) (new : List Mut) : List Mut → List Mut
  | [] => []
  | m :: ms => m.prepend q new :: Mut.prependIn q new ms
end

/-- A change with the targets in the copy. -/
inductive Act where
  | first (q : List Nat) (new : List Green)
  | after (q : List Nat) (new : List Green)
  | delete (q : List Nat)
  | replace (q : List Nat) (new : Green)
  | replaceMany (q : List Nat) (new : List Green)

/-- edit_algo.rs:152–179; `none` is a panic of `to_node` or `unwrap`. -/
def Change.act : Change → Option Act
  | .insert (.first p) new => (target p).map (Act.first · new)
  | .insert (.after c) new => (target c).map (Act.after · new)
  | .replace e none => (target e).map Act.delete
  | .replace e (some g) => (target e).map (Act.replace · g)
  | .replaceMany e new => (target e).map (Act.replaceMany · new)

/-- edit_algo.rs:249–282: one round of the loop. Taking out an element that is not in a tree does nothing; replacing it and
inserting after it panics. -/
def Mut.step (t : Mut) : Act → Option Mut
  | .first q new => some (t.prepend q (freshAll new))
  | .after q new => if t.has q then some (t.splice q fun m => m :: freshAll new) else none
  | .delete q => some (t.splice q fun _ => [])
  | .replace q new =>
    if t.id = some q then (if new.isTok then none else some (fresh new))
    else if t.has q then some (t.splice q fun _ => [fresh new]) else none
  | .replaceMany q new => if t.has q then some (t.splice q fun _ => freshAll new) else none

/-- The loop of edit_algo.rs:249–282. -/
def Mut.steps (t : Mut) : List Act → Option Mut
  | [] => some t
  | a :: as => (t.step a).bind fun t' => t'.steps as

/-- What comes out of `finish`. -/
inductive Outcome where
  | done (new : Green)
  /-- The changes are refused: `never!` panics in a debug build, otherwise it writes to the log and the tree stays as it is. -/
  | refused
  | panic

/-- `all of them`, or none. -/
def allSome {α β : Type} (f : α → Option β) : List α → Option (List β)
  | [] => some []
  | a :: as => (f a).bind fun b => (allSome f as).map (b :: ·)

/-- `apply_edits` (edit_algo.rs:20–289) of a whole tree. -/
def finish (root : Green) (changes : List Change) : Outcome :=
  let cs := sortByKey Change.key changes
  if !disjointReplaces cs then .refused
  else if dependent none cs then .panic
  else match (allSome Change.act cs).bind fun acts => (clone [] root).steps acts with
    | some t => .done t.green
    | none => .panic

end Verif.Editor
