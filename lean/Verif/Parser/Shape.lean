import Verif.Parser.Sink

/-! The shape of a syntax tree without white space and comments, and that the sink builds the shape of the calls. -/

namespace Verif.Parser
open Verif.Syntax (SyntaxKind)

/-- A node is entered or left, or there is a leaf. -/
inductive Mark where
  | enter (k : SyntaxKind) | leave | leaf (k : SyntaxKind)
deriving DecidableEq, Repr

/-- The calls on the sink, without the texts and the errors. -/
def marks : List Step → List Mark
  | [] => []
  | .start k :: xs => .enter k :: marks xs
  | .finish :: xs => .leave :: marks xs
  | .token k _ :: xs => .leaf k :: marks xs
  | .error :: xs => marks xs

mutual
/-- A walk through the tree that passes over white space and comments. -/
def Green.marks : Green → List Mark
  | .node k cs => .enter k :: Green.marksList cs ++ [.leave]
  | .tok k _ => if k.isTrivia then [] else [.leaf k]
def Green.marksList : List Green → List Mark
  | [] => []
  | g :: gs => g.marks ++ Green.marksList gs
end

/-- A call that is no error and whose token is neither white space nor a comment. -/
def Step.Good : Step → Prop
  | .error => False
  | .token k _ => k.isTrivia = false
  | _ => True

/-- A call whose token is neither white space nor a comment. -/
def Step.Leaf : Step → Prop
  | .token k _ => k.isTrivia = false
  | _ => True

theorem Step.Good.leaf {x : Step} (h : x.Good) : x.Leaf ∧ x ≠ .error := by
  cases x with
  | error => exact absurd h id
  | token k n => exact ⟨h, by simp⟩
  | start k => exact ⟨trivial, by simp⟩
  | finish => exact ⟨trivial, by simp⟩

theorem marks_append (a b : List Step) : marks (a ++ b) = marks a ++ marks b := by
  induction a with
  | nil => rfl
  | cons x a ih => cases x <;> simp [marks, ih]

theorem Green.marksList_append (a b : List Green) : Green.marksList (a ++ b) = Green.marksList a ++ Green.marksList b := by
  induction a with
  | nil => rfl
  | cons x a ih => simp [Green.marksList, ih]

/-- The walk through what has been built, with nodes that are still open. -/
def openMarks : List (SyntaxKind × Nat) → List Green → List Mark
  | [], cs => Green.marksList cs
  | (k, i) :: ps, cs => openMarks ps (cs.take i) ++ .enter k :: Green.marksList (cs.drop i)

/-- The first children of the open nodes are in order. -/
def Ordered : List (SyntaxKind × Nat) → Nat → Prop
  | [], _ => True
  | (_, i) :: ps, n => i ≤ n ∧ Ordered ps i

theorem Ordered.mono {ps : List (SyntaxKind × Nat)} {n m : Nat} (h : Ordered ps n) (hm : n ≤ m) : Ordered ps m := by
  cases ps with
  | nil => trivial
  | cons p ps => exact ⟨Nat.le_trans h.1 hm, h.2⟩

theorem openMarks_append {ps : List (SyntaxKind × Nat)} {cs ds : List Green} (h : Ordered ps cs.length) :
    openMarks ps (cs ++ ds) = openMarks ps cs ++ Green.marksList ds := by
  cases ps with
  | nil => exact Green.marksList_append cs ds
  | cons p ps =>
    obtain ⟨k, i⟩ := p
    have hi : i ≤ cs.length := h.1
    simp [openMarks, List.take_append_of_le_length hi, List.drop_append_of_le_length hi, Green.marksList_append]

/-- The sink has been given calls with these marks, and if `e` none of them was an error. -/
structure Sink.Has (e : Prop) (s : Sink) (ms : List Mark) : Prop where
  ordered : Ordered s.builder.parents s.builder.children.length
  built : openMarks s.builder.parents s.builder.children ++ (if s.state = .PendingFinish then [.leave] else []) = ms
  clean : e → s.errors = []

variable {e : Prop}

theorem Sink.Has.trivia {s : Sink} {ms : List Mark} (h : s.Has e ms) (hs : s.state = .Normal) {k : SyntaxKind} (hk : k.isTrivia = true)
    (n : Nat) : (s.doToken k n).Has e ms ∧ (s.doToken k n).state = .Normal := by
  refine ⟨⟨?_, ?_, h.clean⟩, hs⟩
  · exact h.ordered.mono (by simp [Sink.doToken, Builder.token])
  · have := h.built
    simp only [Sink.doToken, Builder.token, hs] at this ⊢
    rw [openMarks_append h.ordered]
    simpa [Green.marksList, Green.marks, hk] using this

theorem Sink.Has.tok {s : Sink} {ms : List Mark} (h : s.Has e ms) (hs : s.state = .Normal) {k : SyntaxKind} (hk : k.isTrivia = false)
    (n : Nat) : (s.doToken k n).Has e (ms ++ [.leaf k]) ∧ (s.doToken k n).state = .Normal := by
  refine ⟨⟨?_, ?_, h.clean⟩, hs⟩
  · exact h.ordered.mono (by simp [Sink.doToken, Builder.token])
  · have := h.built
    simp only [Sink.doToken, Builder.token, hs] at this ⊢
    rw [openMarks_append h.ordered]
    simpa [Green.marksList, Green.marks, hk] using this

theorem Sink.Has.eatTrivias_go {ms : List Mark} : ∀ (n : Nat) {s : Sink}, s.Has e ms → s.state = .Normal →
    (Sink.eatTrivias.go n s).Has e ms ∧ (Sink.eatTrivias.go n s).state = .Normal
  | 0, s, h, hs => ⟨h, hs⟩
  | n + 1, s, h, hs => by
    unfold Sink.eatTrivias.go
    split
    · exact ⟨h, hs⟩
    · split
      · rename_i ht
        obtain ⟨h1, h2⟩ := h.trivia hs ht 1
        exact Sink.Has.eatTrivias_go n h1 h2
      · exact ⟨h, hs⟩

theorem Sink.Has.eatTrivias {ms : List Mark} {s : Sink} (h : s.Has e ms) (hs : s.state = .Normal) :
    s.eatTrivias.Has e ms ∧ s.eatTrivias.state = .Normal := Sink.Has.eatTrivias_go _ h hs

theorem Sink.Has.eatN {ms : List Mark} : ∀ (n : Nat) {s s' : Sink}, s.Has e ms → s.state = .Normal → Sink.eatNTrivias n s = some s' →
    s'.Has e ms ∧ s'.state = .Normal
  | 0, s, s', h, hs, he => by
    simp only [Sink.eatNTrivias, Option.some.injEq] at he
    exact he ▸ ⟨h, hs⟩
  | n + 1, s, s', h, hs, he => by
    unfold Sink.eatNTrivias at he
    split at he
    · cases he
    · split at he
      · rename_i ht
        obtain ⟨h1, h2⟩ := h.trivia hs ht 1
        exact Sink.Has.eatN n h1 h2 he
      · cases he

/-- A node that is left. -/
theorem finish_marks {b b' : Builder} (ho : Ordered b.parents b.children.length) (h : b.finishNode = some b') :
    Ordered b'.parents b'.children.length ∧
      openMarks b'.parents b'.children = openMarks b.parents b.children ++ [.leave] := by
  unfold Builder.finishNode at h
  split at h
  · cases h
  · rename_i k i ps hp
    cases h
    rw [hp] at ho ⊢
    have hl : (b.children.take i).length = i := by simpa using Nat.min_eq_left ho.1
    refine ⟨ho.2.mono (by simp only [List.length_append, hl]; omega), ?_⟩
    dsimp only
    rw [openMarks_append (hl.symm ▸ ho.2)]
    simp [openMarks, Green.marksList, Green.marks]

/-- The node that is to be left is left. -/
theorem Sink.Has.leave {s s' : Sink} {ms : List Mark} (h : s.Has e ms) (he : s.leave .Normal = some s') :
    s'.Has e ms ∧ s'.state = .Normal := by
  unfold Sink.leave at he
  split at he
  · cases he
  · rename_i hs
    rw [Option.map_eq_some_iff] at he
    obtain ⟨b, hb, rfl⟩ := he
    obtain ⟨h1, h2⟩ := finish_marks h.ordered hb
    refine ⟨⟨h1, ?_, h.clean⟩, rfl⟩
    have := h.built
    rw [hs, if_pos rfl] at this
    dsimp only
    rw [h2, this]
    simp
  · rename_i hs
    cases he
    refine ⟨⟨h.ordered, ?_, h.clean⟩, rfl⟩
    have := h.built
    rw [hs] at this
    simpa using this

theorem Sink.Has.finishNode {s s' : Sink} {ms : List Mark} (h : s.Has e ms) (he : s.finishNode = some s') :
    s'.Has e (ms ++ [.leave]) := by
  unfold Sink.finishNode Sink.leave at he
  split at he
  · cases he
  · rename_i hs
    rw [Option.map_eq_some_iff] at he
    obtain ⟨b, hb, rfl⟩ := he
    obtain ⟨h1, h2⟩ := finish_marks h.ordered hb
    refine ⟨h1, ?_, h.clean⟩
    have := h.built
    rw [hs, if_pos rfl] at this
    simp only [if_true]
    rw [h2, this]
  · rename_i hs
    cases he
    refine ⟨h.ordered, ?_, h.clean⟩
    have := h.built
    rw [hs] at this
    simp at this
    simp [this]

theorem Sink.Has.open' {s : Sink} {ms : List Mark} (h : s.Has e ms) (hs : s.state ≠ .PendingFinish) (k : SyntaxKind) :
    Sink.Has e { s with state := .Normal, builder := s.builder.startNode k } (ms ++ [.enter k]) := by
  refine ⟨⟨Nat.le_refl _, h.ordered⟩, ?_, h.clean⟩
  have := h.built
  rw [if_neg hs] at this
  simp [Builder.startNode, openMarks, Green.marksList, ← this]

theorem Sink.Has.startNode {s s' : Sink} {ms : List Mark} {k : SyntaxKind} (h : s.Has e ms) (he : s.startNode k = some s') :
    s'.Has e (ms ++ [.enter k]) := by
  unfold Sink.startNode at he
  split at he
  · rename_i hs
    cases he
    exact h.open' (by rw [hs]; decide) k
  · simp only [Option.bind_eq_bind, Option.bind_eq_some_iff] at he
    obtain ⟨s1, h1, n, h2, s2, h3, h4⟩ := he
    obtain ⟨a1, b1⟩ := h.leave h1
    obtain ⟨a2, b2⟩ := a1.eatN _ b1 h3
    have a3 := a2.open' (by rw [b2]; decide) k
    rw [← b2] at a3
    exact (a3.eatN _ b2 h4).1

theorem Sink.Has.token {s s' : Sink} {ms : List Mark} {k : SyntaxKind} {n : Nat} (h : s.Has e ms) (hk : k.isTrivia = false)
    (he : s.token k n = some s') : s'.Has e (ms ++ [.leaf k]) := by
  unfold Sink.token at he
  simp only [Option.bind_eq_bind, Option.bind_eq_some_iff] at he
  obtain ⟨s1, h1, h2⟩ := he
  obtain ⟨a1, b1⟩ := h.leave h1
  obtain ⟨a2, b2⟩ := a1.eatTrivias b1
  split at h2
  · cases h2
    exact (a2.tok b2 hk n).1
  · cases h2

theorem Sink.Has.run : ∀ {xs : List Step} {s s' : Sink} {ms : List Mark}, s.Has e ms →
    (∀ x ∈ xs, x.Leaf ∧ (e → x ≠ .error)) → s.run xs = some s' → s'.Has e (ms ++ marks xs)
  | [], s, s', ms, h, _, he => by
    simp only [Sink.run, Option.some.injEq] at he
    simpa [marks, ← he] using h
  | x :: xs, s, s', ms, h, hg, he => by
    simp only [Sink.run, Option.bind_eq_some_iff] at he
    obtain ⟨s1, h1, h2⟩ := he
    have hx := hg x (by simp)
    have hxs : ∀ y ∈ xs, y.Leaf ∧ (e → y ≠ .error) := fun y hy => hg y (by simp [hy])
    cases x with
    | start k => simpa [marks] using (h.startNode h1).run hxs h2
    | finish => simpa [marks] using (h.finishNode h1).run hxs h2
    | token k n => simpa [marks] using (h.token hx.1 h1).run hxs h2
    | error =>
      cases h1
      have h3 : s.error.Has e ms := ⟨h.ordered, h.built, fun h0 => absurd rfl (hx.2 h0)⟩
      simpa [marks] using h3.run hxs h2

def Mark.isEnter : Mark → Bool
  | .enter _ => true
  | _ => false

def Mark.isLeave : Mark → Bool
  | .leave => true
  | _ => false

mutual
theorem Green.marks_balanced : ∀ g : Green, g.marks.countP Mark.isEnter = g.marks.countP Mark.isLeave
  | .node k cs => by
    have := Green.marksList_balanced cs
    simp [Green.marks, List.countP_cons, Mark.isEnter, Mark.isLeave, this]
  | .tok k t => by
    unfold Green.marks
    split <;> simp [Mark.isEnter, Mark.isLeave]
theorem Green.marksList_balanced : ∀ gs : List Green, (marksList gs).countP Mark.isEnter = (marksList gs).countP Mark.isLeave
  | [] => rfl
  | g :: gs => by simp [Green.marksList, g.marks_balanced, Green.marksList_balanced gs]
end

theorem openMarks_depth (ps : List (SyntaxKind × Nat)) (cs : List Green) :
    (openMarks ps cs).countP Mark.isEnter = (openMarks ps cs).countP Mark.isLeave + ps.length := by
  induction ps generalizing cs with
  | nil => simp [openMarks, Green.marksList_balanced]
  | cons p ps ih =>
    obtain ⟨k, i⟩ := p
    simp only [openMarks, List.countP_append, List.countP_cons, Mark.isEnter, Mark.isLeave, ih, Green.marksList_balanced, List.length_cons]
    simp
    omega

/-- The tree has the shape of the calls, and without errors among the calls there are none. -/
theorem buildTree_shape {e : Prop} {ps : List Piece} {events : List Event} {steps : List Step} {t : Green} {errs : List Nat}
    (hp : process events = some steps) (hg : ∀ x ∈ steps, x.Leaf ∧ (e → x ≠ .error))
    (hb : (marks steps).countP Mark.isEnter = (marks steps).countP Mark.isLeave) (h : buildTree ps events = some (t, errs)) :
    t.marks = marks steps ∧ (e → errs = []) := by
  unfold buildTree at h
  rw [hp] at h
  simp only [Option.bind_eq_bind, Option.bind_some, Option.bind_eq_some_iff] at h
  obtain ⟨s, hr, hfin⟩ := h
  have hnew : (Sink.new ps).Has e [] := ⟨trivial, rfl, fun _ => rfl⟩
  have hs : s.Has e ([] ++ marks steps) := hnew.run hg hr
  unfold Sink.finish at hfin
  split at hfin
  · rename_i hst
    simp only [Option.bind_eq_bind, Option.bind_eq_some_iff, Option.pure_def, Option.some.injEq, Prod.mk.injEq] at hfin
    obtain ⟨b, hfn, g, hgr, rfl, rfl⟩ := hfin
    have hn : Sink.Has e { s with state := .Normal } (openMarks s.builder.parents s.builder.children) := ⟨hs.ordered, by simp, hs.clean⟩
    obtain ⟨a1, b1⟩ := hn.eatTrivias rfl
    obtain ⟨o1, o2⟩ := finish_marks a1.ordered hfn
    refine ⟨?_, a1.clean⟩
    have hbuilt := hs.built
    rw [hst, if_pos rfl] at hbuilt
    have hbuilt' := a1.built
    rw [b1] at hbuilt'
    simp only [reduceCtorEq, if_false, List.append_nil] at hbuilt'
    rw [hbuilt', hbuilt] at o2
    unfold Builder.finish at hgr
    split at hgr
    · rename_i k cs hc
      cases hgr
      rw [hc] at o1 o2
      cases hpar : b.parents with
      | nil =>
        rw [hpar] at o2
        simpa [openMarks, Green.marksList] using o2
      | cons p pars =>
        have := openMarks_depth b.parents [Green.node k cs]
        rw [o2, hpar] at this
        simp only [List.nil_append, List.length_cons] at this
        omega
    · cases hgr
  · cases hfin

theorem buildTree_marks {ps : List Piece} {events : List Event} {steps : List Step} {t : Green} {errs : List Nat}
    (hp : process events = some steps) (hg : ∀ x ∈ steps, x.Good)
    (hb : (marks steps).countP Mark.isEnter = (marks steps).countP Mark.isLeave) (h : buildTree ps events = some (t, errs)) :
    t.marks = marks steps ∧ errs = [] := by
  obtain ⟨h1, h2⟩ := buildTree_shape (e := True) hp (fun x hx => ⟨(hg x hx).leaf.1, fun _ => (hg x hx).leaf.2⟩) hb h
  exact ⟨h1, h2 trivial⟩

end Verif.Parser
