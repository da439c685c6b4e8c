import Verif.Parser.Sink
import Verif.Lexer.Lemmas

/-! Syntax trees with positions (the part of `rowan` red trees that the code above the parser uses): an element of a tree is
a green element with the offset of its text and the way to it from the root. -/

namespace Verif.Parser
open Verif.Syntax (SyntaxKind)
open Verif.Lexer (blen)

/-- `kind()`. -/
def Green.kind : Green → SyntaxKind
  | .node k _ => k
  | .tok k _ => k

/-- Whether it is a token. -/
def Green.isTok : Green → Bool
  | .node _ _ => false
  | .tok _ _ => true

/-- The direct children; none for a token. -/
def Green.children : Green → List Green
  | .node _ cs => cs
  | .tok _ _ => []

/-- The length of the text in bytes. -/
def Green.len (g : Green) : Nat := blen g.text

theorem Green.text_node (k : SyntaxKind) (cs : List Green) : (Green.node k cs).text = (cs.map Green.text).flatten := by
  have : ∀ cs, ((Green.leavesList cs).map Piece.text).flatten = (cs.map Green.text).flatten := by
    intro cs
    induction cs with
    | nil => rfl
    | cons g gs ih => simp [Green.leavesList, Green.text, ih]
  unfold Green.text
  rw [Green.leaves]
  exact this cs

theorem Green.text_tok (k : SyntaxKind) (t : List Char) : (Green.tok k t).text = t := by
  simp [Green.text, Green.leaves]

theorem Green.len_node (k : SyntaxKind) (cs : List Green) : (Green.node k cs).len = (cs.map Green.len).sum := by
  unfold Green.len
  rw [Green.text_node]
  induction cs with
  | nil => rfl
  | cons g gs ih =>
    rw [List.map_cons, List.flatten_cons, Lexer.blen_append, ih]
    simp

theorem Green.sizeOf_child {g c : Green} (h : c ∈ g.children) : sizeOf c < sizeOf g := by
  cases g with
  | tok k t => simp [Green.children] at h
  | node k cs =>
    have := List.sizeOf_lt_of_mem h
    simp only [Green.node.sizeOf_spec]
    simp only [Green.children] at h
    have := List.sizeOf_lt_of_mem h
    omega

/-- Induction over the tree. -/
theorem Green.induction {P : Green → Prop} (h : ∀ g, (∀ c ∈ g.children, P c) → P g) (g : Green) : P g := by
  generalize hn : sizeOf g = n
  induction n using Nat.strongRecOn generalizing g with
  | ind n ih => exact h g fun c hc => ih (sizeOf c) (by have := Green.sizeOf_child hc; omega) c rfl

end Verif.Parser

namespace Verif.Syntax
open Verif.Parser (Green)

/-- `SyntaxElement`: a node or token of a tree. `path` are the indices on the way from the root, the last one first; it stands
for the identity of the element. -/
structure Elem where
  path : List Nat
  start : Nat
  green : Green

/-- The end of the text range. -/
def Elem.stop (e : Elem) : Nat := e.start + e.green.len

def Elem.kind (e : Elem) : SyntaxKind := e.green.kind

/-- The root of a tree. -/
def Elem.root (g : Green) : Elem := ⟨[], 0, g⟩

/-- Elements one after the other, as children of the element with the given path. -/
def placed (path : List Nat) : Nat → Nat → List Green → List Elem
  | _, _, [] => []
  | i, s, g :: gs => ⟨i :: path, s, g⟩ :: placed path (i + 1) (s + g.len) gs

/-- `children_with_tokens()`. -/
def Elem.children (e : Elem) : List Elem := placed e.path 0 e.start e.green.children

/-- `children()`: without the tokens. -/
def Elem.nodes (e : Elem) : List Elem := e.children.filter fun c => !c.green.isTok

/-- A token of a kind. -/
def isToken (k : SyntaxKind) (c : Elem) : Bool := c.green.isTok && decide (c.kind = k)

/-- A node of a kind. -/
def isNode (k : SyntaxKind) (c : Elem) : Bool := !c.green.isTok && decide (c.kind = k)

/-- The first token child of a kind (`support::token`). -/
def tokenChild (e : Elem) (k : SyntaxKind) : Option Elem := e.children.find? (isToken k)

/-- The first child node of a kind (`support::child`). -/
def nodeChild (e : Elem) (k : SyntaxKind) : Option Elem := e.children.find? (isNode k)

/-- The list goes from an element at its head up to `top`, each the parent of the one before. -/
inductive Up (top : Elem) : List Elem → Prop where
  | top : Up top [top]
  | child {c p : Elem} {ps : List Elem} : Up top (p :: ps) → c ∈ p.children → Up top (c :: p :: ps)

/-- `ancestors()` of a node is such a list, from the node to the root. -/
abbrev Chain (g : Green) (l : List Elem) : Prop := Up (Elem.root g) l

theorem placed_map (path : List Nat) (i s : Nat) (gs : List Green) : (placed path i s gs).map Elem.green = gs := by
  induction gs generalizing i s with
  | nil => rfl
  | cons g gs ih => simp [placed, ih]

theorem mem_placed {path : List Nat} {i s : Nat} {gs : List Green} {e : Elem} (h : e ∈ placed path i s gs) :
    e.green ∈ gs ∧ s ≤ e.start ∧ e.stop ≤ s + (gs.map Green.len).sum ∧ ∃ j, e.path = j :: path := by
  induction gs generalizing i s with
  | nil => cases h
  | cons g gs ih =>
    rcases List.mem_cons.1 h with rfl | h
    · exact ⟨by simp, Nat.le_refl _, by simp [Elem.stop], _, rfl⟩
    · obtain ⟨h1, h2, h3, h4⟩ := ih h
      refine ⟨by simp [h1], by omega, ?_, h4⟩
      simp only [List.map_cons, List.sum_cons]
      omega

theorem placed_sorted (path : List Nat) (i s : Nat) (gs : List Green) :
    (placed path i s gs).Pairwise fun a b => a.stop ≤ b.start := by
  induction gs generalizing i s with
  | nil => exact .nil
  | cons g gs ih => exact .cons (fun e he => (mem_placed he).2.1) (ih _ _)

theorem children_sum (e : Elem) (h : e.green.isTok = false) : (e.green.children.map Green.len).sum = e.green.len := by
  cases hg : e.green with
  | node k cs => rw [Green.len_node]; rfl
  | tok k t => rw [hg] at h; cases h

theorem Elem.mem_children {e c : Elem} (h : c ∈ e.children) :
    c.green ∈ e.green.children ∧ e.start ≤ c.start ∧ c.stop ≤ e.stop ∧ (∃ j, c.path = j :: e.path) ∧ e.green.isTok = false := by
  obtain ⟨h1, h2, h3, h4⟩ := mem_placed h
  have hn : e.green.isTok = false := by
    cases hg : e.green with
    | node k cs => rfl
    | tok k t => rw [hg] at h1; simp [Green.children] at h1
  refine ⟨h1, h2, ?_, h4, hn⟩
  rw [children_sum e hn] at h3
  exact h3

theorem Elem.children_sorted (e : Elem) : e.children.Pairwise fun a b => a.stop ≤ b.start := placed_sorted _ _ _ _

/-- The way to an element passes through a child of the top. -/
theorem Up.snoc {top c : Elem} {l : List Elem} (h : Up c l) (hc : c ∈ top.children) : Up top (l ++ [top]) := by
  induction h with
  | top => exact .child .top hc
  | child _ h1 ih => exact .child ih h1

theorem Up.top_cases {top : Elem} {l : List Elem} (h : Up top l) :
    l = [top] ∨ ∃ c ∈ top.children, ∃ l', Up c l' ∧ l = l' ++ [top] := by
  induction h with
  | top => exact .inl rfl
  | @child c p ps _ h2 ih =>
    right
    rcases ih with h | ⟨d, hd, l', hl', heq⟩
    · cases h
      exact ⟨c, h2, [c], .top, rfl⟩
    · cases l' with
      | nil => cases hl'
      | cons x xs =>
        simp only [List.cons_append, List.cons.injEq] at heq
        obtain ⟨rfl, rfl⟩ := heq
        exact ⟨d, hd, c :: p :: xs, .child hl' h2, rfl⟩

/-- An element lies inside each of its ancestors. -/
theorem Up.inside {top e : Elem} {ps : List Elem} (h : Up top (e :: ps)) : ∀ p ∈ e :: ps, p.start ≤ e.start ∧ e.stop ≤ p.stop := by
  generalize hl : e :: ps = l at h
  induction h generalizing e ps with
  | top => cases hl; simp
  | @child c p ps' _ h2 ih =>
    cases hl
    intro q hq
    obtain ⟨-, h3, h4, -⟩ := Elem.mem_children h2
    rcases List.mem_cons.1 hq with rfl | hq
    · exact ⟨Nat.le_refl _, Nat.le_refl _⟩
    · obtain ⟨h5, h6⟩ := ih rfl q hq
      omega

/-- Follow child indices from the head of a chain. -/
def down : List Elem → List Nat → Option (List Elem)
  | l, [] => some l
  | [], _ :: _ => none
  | e :: es, i :: is => match e.children[i]? with
    | some c => down (c :: e :: es) is
    | none => none

theorem Up.down {top : Elem} {l m : List Elem} {is : List Nat} (h : Up top l) (hd : down l is = some m) : Up top m := by
  induction is generalizing l with
  | nil => rw [Syntax.down] at hd; cases hd; exact h
  | cons i is ih =>
    cases l with
    | nil => simp [Syntax.down] at hd
    | cons e es =>
      rw [Syntax.down] at hd
      split at hd
      · rename_i c hc
        exact ih (.child h (List.mem_of_getElem? hc)) hd
      · cases hd

end Verif.Syntax
