import Verif.Parser.Full

/-! No node begins or ends with white space or a comment, except the file and the nodes that take the comments before them. -/

namespace Verif.Parser
open Verif.Syntax (SyntaxKind)

/-- White space or a comment. -/
def Green.isTrivia : Green → Bool
  | .node _ _ => false
  | .tok k _ => k.isTrivia

/-- The nodes that may begin with white space or a comment. -/
def loose (k : SyntaxKind) : Prop := takesComments k = true ∨ k = .SOURCE_FILE

def HeadOk (cs : List Green) : Prop := ∀ g, cs.head? = some g → g.isTrivia = false

def LastOk (cs : List Green) : Prop := ∀ g, cs.getLast? = some g → g.isTrivia = false

mutual
/-- Every node of the tree begins and ends with neither white space nor a comment, unless it may. -/
def Green.Neat : Green → Prop
  | .node k cs => (loose k ∨ (HeadOk cs ∧ LastOk cs)) ∧ Green.NeatList cs
  | .tok _ _ => True
def Green.NeatList : List Green → Prop
  | [] => True
  | g :: gs => g.Neat ∧ Green.NeatList gs
end

theorem neatList_append : ∀ {a b : List Green}, Green.NeatList (a ++ b) ↔ Green.NeatList a ∧ Green.NeatList b
  | [], b => by simp [Green.NeatList]
  | x :: a, b => by simp [Green.NeatList, neatList_append (a := a), and_assoc]

/-- The same of what has been built, with nodes that are still open. -/
def NeatOpen : List (SyntaxKind × Nat) → List Green → Prop
  | [], cs => Green.NeatList cs
  | (k, i) :: ps, cs => NeatOpen ps (cs.take i) ∧ Green.NeatList (cs.drop i) ∧ (loose k ∨ HeadOk (cs.drop i))

/-- The innermost open node ends well, and if it is empty then the next token is neither white space nor a comment. -/
def TopOk (ps : List (SyntaxKind × Nat)) (cs : List Green) (toks : List Piece) (st : State) : Prop :=
  match ps with
  | [] => True
  | (k, i) :: _ => loose k ∨ (LastOk (cs.drop i) ∧ (cs.drop i = [] → st = .Normal → toks.takeWhile (·.kind.isTrivia) = []))

structure Sink.Tidy (s : Sink) : Prop where
  ordered : Ordered s.builder.parents s.builder.children.length
  neat : NeatOpen s.builder.parents s.builder.children
  top : TopOk s.builder.parents s.builder.children s.toks s.state

/-- White space and comments may come next. -/
def TriviaOk (ps : List (SyntaxKind × Nat)) (cs : List Green) : Prop :=
  match ps with
  | [] => True
  | (k, i) :: _ => loose k ∨ cs.drop i ≠ []

/-- Something is added at the end. -/
theorem NeatOpen.add {ps : List (SyntaxKind × Nat)} {cs : List Green} {g : Green} (h : NeatOpen ps cs) (ho : Ordered ps cs.length)
    (hg : g.Neat) (ht : g.isTrivia = false ∨ TriviaOk ps cs) : NeatOpen ps (cs ++ [g]) := by
  cases ps with
  | nil => exact neatList_append.2 ⟨h, hg, trivial⟩
  | cons p ps =>
    obtain ⟨k, i⟩ := p
    obtain ⟨h1, h2, h3⟩ := h
    have hi : i ≤ cs.length := ho.1
    refine ⟨by rw [List.take_append_of_le_length hi]; exact h1, ?_, ?_⟩
    · rw [List.drop_append_of_le_length hi]
      exact neatList_append.2 ⟨h2, hg, trivial⟩
    · rcases h3 with h3 | h3
      · exact .inl h3
      rw [List.drop_append_of_le_length hi]
      rcases ht with ht | ht | ht
      · refine .inr fun x hx => ?_
        cases hd : cs.drop i with
        | nil =>
          rw [hd] at hx
          cases hx
          exact ht
        | cons y ys =>
          rw [hd] at hx h3
          exact h3 x hx
      · exact .inl ht
      · refine .inr fun x hx => ?_
        cases hd : cs.drop i with
        | nil => exact absurd hd ht
        | cons y ys =>
          rw [hd] at hx h3
          exact h3 x hx

theorem TriviaOk.add {ps : List (SyntaxKind × Nat)} {cs : List Green} {g : Green} (h : TriviaOk ps cs) (ho : Ordered ps cs.length) :
    TriviaOk ps (cs ++ [g]) := by
  cases ps with
  | nil => trivial
  | cons p ps =>
    refine .inr ?_
    rw [List.drop_append_of_le_length ho.1]
    simp

/-- What holds while white space and comments are taken. -/
structure Sink.Mid (s : Sink) : Prop where
  ordered : Ordered s.builder.parents s.builder.children.length
  neat : NeatOpen s.builder.parents s.builder.children
  ready : TriviaOk s.builder.parents s.builder.children ∨ s.toks.takeWhile (·.kind.isTrivia) = []

theorem Sink.Mid.step {s : Sink} (h : s.Mid) {t : Piece} {ts : List Piece} (ht : s.toks = t :: ts) (hk : t.kind.isTrivia = true) :
    (s.doToken t.kind 1).Mid ∧ TriviaOk (s.doToken t.kind 1).builder.parents (s.doToken t.kind 1).builder.children := by
  have hr : TriviaOk s.builder.parents s.builder.children := by
    rcases h.ready with hr | hr
    · exact hr
    · rw [ht] at hr
      simp [hk] at hr
  refine ⟨⟨h.ordered.mono (by simp [Sink.doToken, Builder.token]), h.neat.add h.ordered trivial (.inr hr), .inl (hr.add h.ordered)⟩,
    hr.add h.ordered⟩

theorem Sink.Mid.eat_go : ∀ (n : Nat) {s : Sink}, s.Mid → (Sink.eatTrivias.go n s).Mid
  | 0, s, h => h
  | n + 1, s, h => by
    unfold Sink.eatTrivias.go
    split
    · exact h
    · split
      · rename_i ht hk
        exact Sink.Mid.eat_go n (h.step ht hk).1
      · exact h

theorem Sink.Mid.eatN : ∀ (n : Nat) {s s' : Sink}, s.Mid → Sink.eatNTrivias n s = some s' → s'.Mid
  | 0, s, s', h, he => by
    simp only [Sink.eatNTrivias, Option.some.injEq] at he
    exact he ▸ h
  | n + 1, s, s', h, he => by
    unfold Sink.eatNTrivias at he
    split at he
    · cases he
    · split at he
      · rename_i ht hk
        exact Sink.Mid.eatN n (h.step ht hk).1 he
      · cases he

/-- A node that is left. -/
theorem finish_neat {b b' : Builder} {toks : List Piece} (ho : Ordered b.parents b.children.length) (hn : NeatOpen b.parents b.children)
    (ht : ∀ k i ps, b.parents = (k, i) :: ps → loose k ∨ LastOk (b.children.drop i)) (h : b.finishNode = some b') (st : State) :
    Ordered b'.parents b'.children.length ∧ NeatOpen b'.parents b'.children ∧ TopOk b'.parents b'.children toks st := by
  unfold Builder.finishNode at h
  split at h
  · cases h
  · rename_i k i ps hp
    cases h
    have htop := ht k i ps hp
    rw [hp] at ho hn
    have hl : (b.children.take i).length = i := by simpa using Nat.min_eq_left ho.1
    obtain ⟨n1, n2, n3⟩ := hn
    have ho' : Ordered ps (b.children.take i).length := hl.symm ▸ ho.2
    refine ⟨ho.2.mono (by simp only [List.length_append, hl]; omega), ?_, ?_⟩
    · refine n1.add ho' ⟨?_, n2⟩ (.inl rfl)
      rcases htop with h1 | h1
      · exact .inl h1
      · rcases n3 with h2 | h2
        · exact .inl h2
        · exact .inr ⟨h2, h1⟩
    · dsimp only
      cases ps with
      | nil => trivial
      | cons p ps =>
        obtain ⟨k', i'⟩ := p
        refine .inr ⟨?_, ?_⟩
        · rw [List.drop_append_of_le_length ho'.1]
          intro g hg
          simp at hg
          rw [← hg]; rfl
        · rw [List.drop_append_of_le_length ho'.1]
          simp

/-- The state after the node that is to be left has been left. -/
theorem Sink.Tidy.leave {s s' : Sink} (h : s.Tidy) {st : State} (he : s.leave st = some s') :
    Ordered s'.builder.parents s'.builder.children.length ∧ NeatOpen s'.builder.parents s'.builder.children ∧
      TopOk s'.builder.parents s'.builder.children s'.toks .Normal ∧ s'.state = st ∧ s'.toks = s.toks := by
  unfold Sink.leave at he
  split at he
  · cases he
  · rw [Option.map_eq_some_iff] at he
    obtain ⟨b, hb, rfl⟩ := he
    obtain ⟨h1, h2, h3⟩ := finish_neat (toks := s.toks) h.ordered h.neat (fun k i ps hp => by
      have := h.top
      rw [hp] at this
      exact this.imp id And.left) hb .Normal
    exact ⟨h1, h2, h3, rfl, rfl⟩
  · rename_i hs
    cases he
    have := h.top
    rw [hs] at this
    exact ⟨h.ordered, h.neat, this, rfl, rfl⟩

theorem TopOk.mid {s : Sink} (ho : Ordered s.builder.parents s.builder.children.length)
    (hn : NeatOpen s.builder.parents s.builder.children) (ht : TopOk s.builder.parents s.builder.children s.toks .Normal) : s.Mid := by
  refine ⟨ho, hn, ?_⟩
  revert ht
  cases s.builder.parents with
  | nil => exact fun _ => .inl trivial
  | cons p ps =>
    rintro (h1 | ⟨-, h1⟩)
    · exact .inl (.inl h1)
    · by_cases hd : s.builder.children.drop p.2 = []
      · exact .inr (h1 hd rfl)
      · exact .inl (.inr hd)

theorem TopOk.any {ps : List (SyntaxKind × Nat)} {cs : List Green} {toks : List Piece} (h : TopOk ps cs toks .Normal) (st : State) :
    TopOk ps cs toks st := by
  cases ps with
  | nil => trivial
  | cons p ps => exact h.imp id fun h => ⟨h.1, fun h1 _ => h.2 h1 rfl⟩

theorem Sink.Tidy.finishNode {s s' : Sink} (h : s.Tidy) (he : s.finishNode = some s') : s'.Tidy := by
  obtain ⟨h1, h2, h3, -, -⟩ := h.leave he
  exact ⟨h1, h2, h3.any _⟩

theorem Sink.Tidy.token {s s' : Sink} {k : SyntaxKind} {n : Nat} (h : s.Tidy) (hk : k.isTrivia = false) (he : s.token k n = some s') :
    s'.Tidy := by
  unfold Sink.token at he
  simp only [Option.bind_eq_bind, Option.bind_eq_some_iff] at he
  obtain ⟨s1, h1, h2⟩ := he
  obtain ⟨a1, a2, a3, -, -⟩ := h.leave h1
  have hm : s1.eatTrivias.Mid := Sink.Mid.eat_go _ (TopOk.mid a1 a2 a3)
  split at h2
  · cases h2
    refine ⟨hm.ordered.mono (by simp [Sink.doToken, Builder.token]), hm.neat.add hm.ordered trivial (.inl hk), ?_⟩
    have ho := hm.ordered
    show TopOk s1.eatTrivias.builder.parents (s1.eatTrivias.builder.children ++ [_]) _ _
    revert ho
    cases s1.eatTrivias.builder.parents with
    | nil => exact fun _ => trivial
    | cons p ps =>
      intro ho
      refine .inr ⟨?_, ?_⟩
      · rw [List.drop_append_of_le_length ho.1]
        intro g hg
        simp at hg
        rw [← hg]; exact hk
      · rw [List.drop_append_of_le_length ho.1]
        simp
  · cases h2

/-- Taking some of the leading white space and comments. -/
theorem eatN_toks : ∀ (n : Nat) {s s' : Sink}, Sink.eatNTrivias n s = some s' → s'.toks = s.toks.drop n
  | 0, s, s', he => by
    simp only [Sink.eatNTrivias, Option.some.injEq] at he
    simp [he]
  | n + 1, s, s', he => by
    unfold Sink.eatNTrivias at he
    split at he
    · cases he
    · split at he
      · rename_i ht hk
        have := eatN_toks n he
        rw [this]
        simp [Sink.doToken, ht]
      · cases he

theorem takeWhile_drop {p : Piece → Bool} : ∀ l : List Piece, (l.drop (l.takeWhile p).length).takeWhile p = []
  | [] => rfl
  | x :: l => by
    by_cases hx : p x = true
    · simp [hx, takeWhile_drop l]
    · simp [hx]

theorem eatN_mono : ∀ (n : Nat) {s s' : Sink}, Sink.eatNTrivias n s = some s' →
    s'.builder.parents = s.builder.parents ∧ ∃ ds, s'.builder.children = s.builder.children ++ ds
  | 0, s, s', he => by
    simp only [Sink.eatNTrivias, Option.some.injEq] at he
    exact he ▸ ⟨rfl, [], by simp⟩
  | n + 1, s, s', he => by
    unfold Sink.eatNTrivias at he
    split at he
    · cases he
    · split at he
      · obtain ⟨h1, ds, h2⟩ := eatN_mono n he
        exact ⟨h1, _, by rw [h2]; simp [Sink.doToken, Builder.token]; rfl⟩
      · cases he

theorem Sink.Tidy.startNode {s s' : Sink} {k : SyntaxKind} (h : s.Tidy) (hs : s.state ≠ .PendingStart) (he : s.startNode k = some s') :
    s'.Tidy := by
  unfold Sink.startNode at he
  rw [if_neg hs] at he
  simp only [Option.bind_eq_bind, Option.bind_eq_some_iff] at he
  obtain ⟨s1, h1, n, h2, s2, h3, h4⟩ := he
  obtain ⟨a1, a2, a3, -, -⟩ := h.leave h1
  have hm : s2.Mid := (TopOk.mid a1 a2 a3).eatN _ h3
  have htoks := eatN_toks _ h3
  by_cases hl : loose k
  · have hm3 : Sink.Mid { s2 with builder := s2.builder.startNode k } := by
      refine ⟨⟨Nat.le_refl _, hm.ordered⟩, ⟨?_, ?_, .inl hl⟩, .inl (.inl hl)⟩
      · simpa [Builder.startNode] using hm.neat
      · simp [Builder.startNode, Green.NeatList]
    have hm4 := hm3.eatN _ h4
    obtain ⟨hp, -⟩ := eatN_mono _ h4
    refine ⟨hm4.ordered, hm4.neat, ?_⟩
    rw [hp]
    exact .inl hl
  · have hn : n = 0 := by
      unfold nAttachedTrivias at h2
      rw [if_neg (fun h => hl (.inl h))] at h2
      simpa using h2.symm
    subst hn
    simp only [Sink.eatNTrivias, Option.some.injEq] at h4
    subst h4
    refine ⟨⟨Nat.le_refl _, hm.ordered⟩, ⟨?_, ?_, .inr ?_⟩, .inr ⟨?_, fun _ _ => ?_⟩⟩
    · simpa [Builder.startNode] using hm.neat
    · simp [Builder.startNode, Green.NeatList]
    · simp [Builder.startNode, HeadOk]
    · simp [Builder.startNode, LastOk]
    · show s2.toks.takeWhile _ = []
      rw [htoks, Nat.sub_zero]
      exact takeWhile_drop _

theorem leave_started {s s' : Sink} {st : State} (he : s.leave st = some s') : s'.state = st := by
  unfold Sink.leave at he
  split at he
  · cases he
  · rw [Option.map_eq_some_iff] at he
    obtain ⟨b, -, rfl⟩ := he
    rfl
  · cases he; rfl

theorem eatN_state : ∀ (n : Nat) {s s' : Sink}, Sink.eatNTrivias n s = some s' → s'.state = s.state
  | 0, s, s', he => by
    simp only [Sink.eatNTrivias, Option.some.injEq] at he
    exact he ▸ rfl
  | n + 1, s, s', he => by
    unfold Sink.eatNTrivias at he
    split at he
    · cases he
    · split at he
      · rw [eatN_state n he]; rfl
      · cases he

theorem eat_go_state : ∀ (n : Nat) (s : Sink), (Sink.eatTrivias.go n s).state = s.state
  | 0, s => rfl
  | n + 1, s => by
    unfold Sink.eatTrivias.go
    split
    · rfl
    · split
      · rw [eat_go_state n]; rfl
      · rfl

/-- Once something has been started. -/
theorem step_started {s s' : Sink} {x : Step} (hs : s.state ≠ .PendingStart) (he : s.step x = some s') : s'.state ≠ .PendingStart := by
  cases x with
  | start k =>
    simp only [Sink.step, Sink.startNode, if_neg hs, Option.bind_eq_bind, Option.bind_eq_some_iff] at he
    obtain ⟨s1, h1, n, h2, s2, h3, h4⟩ := he
    rw [eatN_state _ h4]
    show s2.state ≠ _
    rw [eatN_state _ h3, leave_started h1]
    decide
  | finish => rw [leave_started he]; decide
  | token k n =>
    simp only [Sink.step, Sink.token, Option.bind_eq_bind, Option.bind_eq_some_iff] at he
    obtain ⟨s1, h1, h2⟩ := he
    split at h2
    · cases h2
      show (Sink.eatTrivias.go _ s1).state ≠ _
      rw [eat_go_state, leave_started h1]
      decide
    · cases h2
  | error => cases he; exact hs

theorem Sink.Tidy.run : ∀ {xs : List Step} {s s' : Sink}, s.Tidy → s.state ≠ .PendingStart → (∀ x ∈ xs, x.Leaf) → s.run xs = some s' →
    s'.Tidy
  | [], s, s', h, _, _, he => by
    simp only [Sink.run, Option.some.injEq] at he
    exact he ▸ h
  | x :: xs, s, s', h, hs, hg, he => by
    simp only [Sink.run, Option.bind_eq_some_iff] at he
    obtain ⟨s1, h1, h2⟩ := he
    have hx := hg x (by simp)
    have h3 := step_started hs h1
    refine Sink.Tidy.run ?_ h3 (fun y hy => hg y (by simp [hy])) h2
    cases x with
    | start k => exact h.startNode hs h1
    | finish => exact h.finishNode h1
    | token k n => exact h.token hx h1
    | error =>
      cases h1
      exact ⟨h.ordered, h.neat, h.top⟩

theorem NeatOpen.all : ∀ {ps : List (SyntaxKind × Nat)} {cs : List Green}, NeatOpen ps cs → Green.NeatList cs
  | [], _, h => h
  | (_, i) :: _, cs, h => by
    rw [← List.take_append_drop i cs]
    exact neatList_append.2 ⟨NeatOpen.all h.1, h.2.1⟩

theorem eat_go_neat : ∀ (n : Nat) (s : Sink), Green.NeatList s.builder.children → Green.NeatList (Sink.eatTrivias.go n s).builder.children
  | 0, s, h => h
  | n + 1, s, h => by
    unfold Sink.eatTrivias.go
    split
    · exact h
    · split
      · exact eat_go_neat n _ (neatList_append.2 ⟨h, trivial, trivial⟩)
      · exact h

/-- The tree of calls that begin with the file. -/
theorem buildTree_neat {ps : List Piece} {events : List Event} {inner : List Step} {k : SyntaxKind} {cs : List Green} {errs : List Nat}
    (hp : process events = some (.start .SOURCE_FILE :: inner)) (hg : ∀ x ∈ inner, x.Leaf)
    (h : buildTree ps events = some (.node k cs, errs)) : Green.NeatList cs := by
  unfold buildTree at h
  rw [hp] at h
  simp only [Option.bind_eq_bind, Option.bind_some, Option.bind_eq_some_iff] at h
  obtain ⟨s, hr, hfin⟩ := h
  simp only [Sink.run, Sink.step, Sink.startNode, Sink.new, if_true, Option.bind_some] at hr
  have h0 : Sink.Tidy { Sink.new ps with state := .Normal, builder := (Sink.new ps).builder.startNode .SOURCE_FILE } :=
    ⟨⟨Nat.le_refl _, trivial⟩, ⟨trivial, trivial, .inl (.inr rfl)⟩, .inl (.inr rfl)⟩
  have hs := (h0.run (by simp) hg hr).neat.all
  unfold Sink.finish at hfin
  split at hfin
  · simp only [Option.bind_eq_bind, Option.bind_eq_some_iff, Option.pure_def, Option.some.injEq, Prod.mk.injEq] at hfin
    obtain ⟨b, hfn, g, hgr, rfl, rfl⟩ := hfin
    have h1 : Green.NeatList (Sink.eatTrivias { s with state := .Normal }).builder.children := eat_go_neat _ _ hs
    revert hfn h1
    generalize (Sink.eatTrivias { s with state := .Normal }).builder = b0
    intro hfn h1
    unfold Builder.finishNode at hfn
    split at hfn
    · cases hfn
    · rename_i k' i ps' _
      cases hfn
      unfold Builder.finish at hgr
      split at hgr
      · rename_i k2 cs2 hc
        simp only [Option.some.injEq, Green.node.injEq] at hgr
        obtain ⟨rfl, rfl⟩ := hgr
        dsimp only at hc
        have h2 : b0.children.take i = [] := by
          cases hd : b0.children.take i with
          | nil => rfl
          | cons x xs =>
            rw [hd] at hc
            simp at hc
        rw [h2] at hc
        simp only [List.nil_append, List.cons.injEq, Green.node.injEq, and_true] at hc
        rw [← hc.2]
        rw [← List.take_append_drop i b0.children] at h1
        exact (neatList_append.1 h1).2
      · cases hgr
  · cases hfin

/-- A node with one token that takes no comments has that token as its only child. -/
theorem one_token {k k' : SyntaxKind} {cs : List Green} (hk : ¬ loose k) (hn : (Green.node k cs).Neat) (ht : tops cs = [.tok k']) :
    ∃ t, cs = [.tok k' t] := by
  obtain ⟨h1, h2⟩ := hn.1.resolve_left hk
  have key : ∀ g gs, g.isTrivia = false → ∃ x, tops (g :: gs) = x :: tops gs := by
    intro g gs hg
    cases g with
    | node k cs => exact ⟨_, rfl⟩
    | tok k t => exact ⟨.tok k, by simp [tops, show k.isTrivia = false from hg]⟩
  cases cs with
  | nil => cases ht
  | cons g gs =>
    have hg := h1 g rfl
    have hgs : gs = [] := by
      by_contra hne
      obtain ⟨gs', l, rfl⟩ := List.eq_nil_or_concat gs |>.resolve_left hne
      have hl := h2 l (by rw [List.concat_eq_append, ← List.cons_append, List.getLast?_concat])
      have happ : ∀ a : List Green, tops (a ++ [l]) ≠ [] := by
        intro a
        induction a with
        | nil =>
          obtain ⟨x, hx⟩ := key l [] hl
          simp [hx]
        | cons y a ih =>
          cases y with
          | node => simp [tops]
          | tok k t =>
            simp only [List.cons_append, tops]
            split
            · exact ih
            · simp
      obtain ⟨x, hx⟩ := key g (gs' ++ [l]) hg
      rw [List.concat_eq_append, hx] at ht
      simp only [List.cons.injEq] at ht
      exact happ _ ht.2
    subst hgs
    cases g with
    | node => cases ht
    | tok k t =>
      have : k.isTrivia = false := hg
      simp [tops, this] at ht
      exact ⟨t, by rw [ht]⟩

end Verif.Parser
