import Verif.Parser.Props
import Verif.Parser.Words

/-! The tree of a text whose identifiers are given other names: the same tree, with the new names at its leaves. -/

namespace Verif.Parser
open Verif.Syntax (SyntaxKind)
open Verif.Lexer (blen blen_append)

/-- The text of some pieces. -/
def texts (ps : List Piece) : List Char := (ps.map Piece.text).flatten

@[simp] theorem texts_nil : texts [] = [] := rfl
@[simp] theorem texts_cons (p : Piece) (ps : List Piece) : texts (p :: ps) = p.text ++ texts ps := rfl
@[simp] theorem texts_append (a b : List Piece) : texts (a ++ b) = texts a ++ texts b := by simp [texts]

/-- New texts for the pieces that start at some offsets. -/
def relabelPieces (f : Nat → Option (List Char)) : Nat → List Piece → List Piece
  | _, [] => []
  | o, p :: ps => ⟨p.kind, (f o).getD p.text⟩ :: relabelPieces f (o + blen p.text) ps

mutual
/-- New texts for the leaves that start at some offsets. -/
def Green.relabel (f : Nat → Option (List Char)) : Nat → Green → Green
  | o, .node k cs => .node k (Green.relabelList f o cs)
  | o, .tok k t => .tok k ((f o).getD t)
def Green.relabelList (f : Nat → Option (List Char)) : Nat → List Green → List Green
  | _, [] => []
  | o, g :: gs => g.relabel f o :: Green.relabelList f (o + blen g.text) gs
end

section
variable {f : Nat → Option (List Char)}

theorem relabelPieces_append (o : Nat) (a b : List Piece) :
    relabelPieces f o (a ++ b) = relabelPieces f o a ++ relabelPieces f (o + blen (texts a)) b := by
  induction a generalizing o with
  | nil => simp [relabelPieces, blen]
  | cons p ps ih => simp [relabelPieces, ih, blen_append, Nat.add_assoc]

@[simp] theorem relabelPieces_length (o : Nat) (ps : List Piece) : (relabelPieces f o ps).length = ps.length := by
  induction ps generalizing o with
  | nil => rfl
  | cons p ps ih => simp [relabelPieces, ih]

theorem relabelPieces_take (o n : Nat) (ps : List Piece) : (relabelPieces f o ps).take n = relabelPieces f o (ps.take n) := by
  induction ps generalizing o n with
  | nil => simp [relabelPieces]
  | cons p ps ih => cases n <;> simp [relabelPieces, ih]

theorem relabelPieces_drop (o n : Nat) (ps : List Piece) :
    (relabelPieces f o ps).drop n = relabelPieces f (o + blen (texts (ps.take n))) (ps.drop n) := by
  induction ps generalizing o n with
  | nil => simp [relabelPieces]
  | cons p ps ih => cases n <;> simp [relabelPieces, ih, blen, blen_append, Nat.add_assoc]

theorem relabelList_append (o : Nat) (a b : List Green) :
    Green.relabelList f o (a ++ b) = Green.relabelList f o a ++ Green.relabelList f (o + blen (texts (Green.leavesList a))) b := by
  induction a generalizing o with
  | nil => simp [Green.relabelList, Green.leavesList, blen]
  | cons p ps ih =>
    simp only [List.cons_append, Green.relabelList, ih, Green.leavesList, texts_append, blen_append]
    rw [show texts p.leaves = p.text from rfl, Nat.add_assoc]

@[simp] theorem relabelList_length (o : Nat) (gs : List Green) : (Green.relabelList f o gs).length = gs.length := by
  induction gs generalizing o with
  | nil => rfl
  | cons p ps ih => simp [Green.relabelList, ih]

theorem relabelList_take (o n : Nat) (gs : List Green) :
    (Green.relabelList f o gs).take n = Green.relabelList f o (gs.take n) := by
  induction gs generalizing o n with
  | nil => simp [Green.relabelList]
  | cons p ps ih => cases n <;> simp [Green.relabelList, ih]

theorem relabelList_drop (o n : Nat) (gs : List Green) :
    (Green.relabelList f o gs).drop n = Green.relabelList f (o + blen (texts (Green.leavesList (gs.take n)))) (gs.drop n) := by
  induction gs generalizing o n with
  | nil => simp [Green.relabelList]
  | cons p ps ih =>
    cases n with
    | zero => simp [Green.leavesList, blen]
    | succ n =>
      simp only [Green.relabelList, List.drop_succ_cons, List.take_succ_cons, ih, Green.leavesList, texts_append, blen_append]
      rw [show texts p.leaves = p.text from rfl, Nat.add_assoc]

mutual
theorem relabel_leaves (o : Nat) (g : Green) : (g.relabel f o).leaves = relabelPieces f o g.leaves := by
  cases g with
  | node k cs => simp only [Green.relabel, Green.leaves]; exact relabelList_leaves o cs
  | tok k t => simp [Green.relabel, Green.leaves, relabelPieces]
theorem relabelList_leaves (o : Nat) (gs : List Green) :
    Green.leavesList (Green.relabelList f o gs) = relabelPieces f o (Green.leavesList gs) := by
  cases gs with
  | nil => rfl
  | cons g gs =>
    simp only [Green.relabelList, Green.leavesList, relabelPieces_append]
    rw [relabel_leaves o g, relabelList_leaves]; rfl
end

/-- The pieces that get a new text. -/
def Touches (Q : Piece → Prop) (f : Nat → Option (List Char)) : Nat → List Piece → Prop
  | _, [] => True
  | o, p :: ps => ((f o).isSome = true → Q p) ∧ Touches Q f (o + blen p.text) ps

theorem Touches.append {Q : Piece → Prop} {o : Nat} {a b : List Piece} :
    Touches Q f o (a ++ b) ↔ Touches Q f o a ∧ Touches Q f (o + blen (texts a)) b := by
  induction a generalizing o with
  | nil => simp [Touches, blen]
  | cons p ps ih => simp [Touches, ih, blen_append, Nat.add_assoc, and_assoc]

theorem Touches.mono {Q R : Piece → Prop} {o : Nat} {a : List Piece} (hQ : ∀ p ∈ a, Q p → R p) (h : Touches Q f o a) : Touches R f o a := by
  induction a generalizing o with
  | nil => trivial
  | cons p ps ih => exact ⟨fun hs => hQ p List.mem_cons_self (h.1 hs), ih (fun q hq => hQ q (List.mem_cons_of_mem _ hq)) h.2⟩

/-- White space and comments keep their texts. -/
abbrev Spares (f : Nat → Option (List Char)) (o : Nat) (ps : List Piece) : Prop := Touches (fun p => p.kind.isTrivia = false) f o ps

theorem Spares.takeWhile {o : Nat} {ps : List Piece} (h : Spares f o ps) :
    (relabelPieces f o ps).takeWhile (·.kind.isTrivia) = ps.takeWhile (·.kind.isTrivia) := by
  induction ps generalizing o with
  | nil => rfl
  | cons p ps ih =>
    obtain ⟨h1, h2⟩ := h
    by_cases hp : p.kind.isTrivia = true
    · have h0 : f o = none := by
        cases hf : f o with
        | none => rfl
        | some y => exact absurd (h1 (by simp [hf])) (by simp [hp])
      simp [relabelPieces, hp, ih h2, h0]
    · simp [relabelPieces, hp]

theorem Spares.dropWhile {o : Nat} {ps : List Piece} (h : Spares f o ps) :
    (relabelPieces f o ps).dropWhile (·.kind.isTrivia) =
      relabelPieces f (o + blen (texts (ps.takeWhile (·.kind.isTrivia)))) (ps.dropWhile (·.kind.isTrivia)) := by
  induction ps generalizing o with
  | nil => rfl
  | cons p ps ih =>
    by_cases hp : p.kind.isTrivia = true
    · simp [relabelPieces, hp, ih h.2, blen_append, Nat.add_assoc]
    · simp [relabelPieces, hp, blen]

/-- A token made of several pieces gets the new text of its pieces. -/
def Whole (f : Nat → Option (List Char)) : Nat → List Piece → List (SyntaxKind × Nat) → Prop
  | _, _, [] => True
  | o, ps, (_, n) :: ns =>
    (f (o + blen (texts (ps.takeWhile (·.kind.isTrivia))))).getD (texts ((ps.dropWhile (·.kind.isTrivia)).take n)) =
      texts (relabelPieces f (o + blen (texts (ps.takeWhile (·.kind.isTrivia)))) ((ps.dropWhile (·.kind.isTrivia)).take n)) ∧
    Whole f (o + blen (texts (ps.takeWhile (·.kind.isTrivia))) + blen (texts ((ps.dropWhile (·.kind.isTrivia)).take n)))
      ((ps.dropWhile (·.kind.isTrivia)).drop n) ns

theorem whole_cons_trivia {o : Nat} {t : Piece} (ht : t.kind.isTrivia = true) {ps : List Piece} {ns : List (SyntaxKind × Nat)} :
    Whole f o (t :: ps) ns ↔ Whole f (o + blen t.text) ps ns := by
  cases ns with
  | nil => simp [Whole]
  | cons m ns => simp [Whole, ht, blen_append, Nat.add_assoc]

/-! ### The sink -/

/-- The sinks for a text and for the text with the new names. -/
structure Sim (f : Nat → Option (List Char)) (ns : List (SyntaxKind × Nat)) (s s' : Sink) : Prop where
  toks : s'.toks = relabelPieces f s.textPos s.toks
  state : s'.state = s.state
  parents : s'.builder.parents = s.builder.parents
  children : s'.builder.children = Green.relabelList f 0 s.builder.children
  pos : blen (texts (Green.leavesList s.builder.children)) = s.textPos
  spares : Spares f s.textPos s.toks
  errors : s'.errors.length = s.errors.length
  whole : Whole f s.textPos s.toks ns

variable {ns : List (SyntaxKind × Nat)} {s s' : Sink}

theorem Sim.doToken {k : SyntaxKind} {n : Nat} {ms : List (SyntaxKind × Nat)} (h : Sim f ns s s')
    (he : (f s.textPos).getD (texts (s.toks.take n)) = texts (relabelPieces f s.textPos (s.toks.take n)))
    (hw : Whole f (s.textPos + blen (texts (s.toks.take n))) (s.toks.drop n) ms) :
    Sim f ms (s.doToken k n) (s'.doToken k n) where
  toks := by simp only [Sink.doToken, h.toks, relabelPieces_drop]; rfl
  state := h.state
  parents := h.parents
  children := by
    simp only [Sink.doToken, Builder.token, h.children, relabelList_append, h.pos, h.toks, relabelPieces_take]
    simp only [Green.relabelList, Green.relabel, Nat.zero_add]
    rw [show ((s.toks.take n).map Piece.text).flatten = texts (s.toks.take n) from rfl, he]
    rfl
  pos := by
    simp only [Sink.doToken, Builder.token, leavesList_append, texts_append, blen_append, h.pos]
    simp [Green.leavesList, Green.leaves, texts]
  spares := by
    have := h.spares
    rw [Spares, ← List.take_append_drop n s.toks, Touches.append] at this
    exact this.2
  errors := h.errors
  whole := hw

theorem Sim.eatOne {t : Piece} {ts : List Piece} (h : Sim f ns s s') (ht : s.toks = t :: ts) (htr : t.kind.isTrivia = true) :
    Sim f ns (s.doToken t.kind 1) (s'.doToken t.kind 1) := by
  refine h.doToken ?_ ?_
  · have h0 : f s.textPos = none := by
      have := h.spares
      rw [ht] at this
      cases hf : f s.textPos with
      | none => rfl
      | some y => exact absurd (this.1 (by simp [hf])) (by simp [htr])
    simp [ht, h0, relabelPieces]
  · have := h.whole
    rw [ht, whole_cons_trivia htr] at this
    simpa [ht] using this

theorem Sim.head {t : Piece} {ts : List Piece} (h : Sim f ns s s') (ht : s.toks = t :: ts) :
    ∃ t' ts', s'.toks = t' :: ts' ∧ t'.kind = t.kind := by
  have := h.toks
  rw [ht] at this
  exact ⟨_, _, this, rfl⟩

theorem Sim.eatTrivias (h : Sim f ns s s') : Sim f ns s.eatTrivias s'.eatTrivias := by
  unfold Sink.eatTrivias
  have hl : s'.toks.length = s.toks.length := by rw [h.toks, relabelPieces_length]
  rw [hl]
  generalize s.toks.length = m
  clear hl
  induction m generalizing s s' with
  | zero => exact h
  | succ m ih =>
    unfold Sink.eatTrivias.go
    cases hts : s.toks with
    | nil =>
      have : s'.toks = [] := by rw [h.toks, hts]; rfl
      rw [this]; exact h
    | cons t ts =>
      obtain ⟨t', ts', e1, e2⟩ := h.head hts
      rw [e1]
      simp only [e2]
      split
      · rename_i htr
        exact ih (h.eatOne hts htr)
      · exact h

theorem Sim.eatN {m : Nat} {s1 : Sink} (h : Sim f ns s s') (hm : Sink.eatNTrivias m s = some s1) :
    ∃ s1', Sink.eatNTrivias m s' = some s1' ∧ Sim f ns s1 s1' := by
  induction m generalizing s s' with
  | zero => cases hm; exact ⟨s', rfl, h⟩
  | succ m ih =>
    unfold Sink.eatNTrivias at hm ⊢
    cases hts : s.toks with
    | nil => rw [hts] at hm; cases hm
    | cons t ts =>
      obtain ⟨t', ts', e1, e2⟩ := h.head hts
      rw [hts] at hm
      rw [e1]
      simp only [e2] at hm ⊢
      split at hm
      · rename_i htr
        rw [if_pos htr]
        exact ih (h.eatOne hts htr) hm
      · cases hm

theorem Sim.finishBuilder {b : Builder} (h : Sim f ns s s') (hb : s.builder.finishNode = some b) :
    ∃ b', s'.builder.finishNode = some b' ∧ b'.parents = b.parents ∧ b'.children = Green.relabelList f 0 b.children ∧
      blen (texts (Green.leavesList b.children)) = s.textPos := by
  unfold Builder.finishNode at hb ⊢
  rw [h.parents]
  cases hp : s.builder.parents with
  | nil => rw [hp] at hb; cases hb
  | cons x ps =>
    obtain ⟨k, first⟩ := x
    rw [hp] at hb
    cases hb
    refine ⟨_, rfl, rfl, ?_, ?_⟩
    · simp only [h.children, relabelList_take, relabelList_drop, relabelList_append]
      simp [Green.relabelList, Green.relabel]
    · rw [← h.pos, leavesList_append]
      simp only [Green.leavesList, Green.leaves, List.append_nil]
      rw [← leavesList_append, List.take_append_drop]

theorem Sim.leave {st : State} {s1 : Sink} (h : Sim f ns s s') (hl : s.leave st = some s1) :
    ∃ s1', s'.leave st = some s1' ∧ Sim f ns s1 s1' ∧ s1.toks = s.toks := by
  unfold Sink.leave at hl ⊢
  rw [h.state]
  cases hst : s.state with
  | PendingStart => rw [hst] at hl; cases hl
  | Normal =>
    rw [hst] at hl
    cases hl
    exact ⟨_, rfl, ⟨h.toks, rfl, h.parents, h.children, h.pos, h.spares, h.errors, h.whole⟩, rfl⟩
  | PendingFinish =>
    rw [hst] at hl
    simp only [Option.map_eq_some_iff] at hl
    obtain ⟨b, hb, rfl⟩ := hl
    obtain ⟨b', e1, e2, e3, e4⟩ := h.finishBuilder hb
    refine ⟨{ s' with state := st, builder := b' }, by simp [e1], ⟨h.toks, rfl, e2, e3, e4, h.spares, h.errors, h.whole⟩, rfl⟩

theorem Sim.start {k : SyntaxKind} {s1 : Sink} (h : Sim f ns s s') (hs : s.startNode k = some s1) :
    ∃ s1', s'.startNode k = some s1' ∧ Sim f ns s1 s1' := by
  have begin_ : ∀ {t t' : Sink}, Sim f ns t t' →
      Sim f ns { t with builder := t.builder.startNode k } { t' with builder := t'.builder.startNode k } := by
    intro t t' ht
    exact ⟨ht.toks, ht.state, by simp [Builder.startNode, ht.parents, ht.children], ht.children, ht.pos, ht.spares, ht.errors, ht.whole⟩
  unfold Sink.startNode at hs ⊢
  rw [h.state]
  by_cases hst : s.state = .PendingStart
  · rw [if_pos hst] at hs ⊢
    cases hs
    refine ⟨_, rfl, ⟨h.toks, rfl, by simp [Builder.startNode, h.parents, h.children], h.children, h.pos, h.spares, h.errors, h.whole⟩⟩
  · rw [if_neg hst] at hs ⊢
    simp only [Option.bind_eq_bind, Option.bind_eq_some_iff] at hs ⊢
    obtain ⟨a, ha, n, hn, b, hb, hc⟩ := hs
    obtain ⟨a', e1, h1, -⟩ := h.leave ha
    have htw : a'.toks.takeWhile (·.kind.isTrivia) = a.toks.takeWhile (·.kind.isTrivia) := by
      rw [h1.toks]; exact h1.spares.takeWhile
    obtain ⟨b', e2, h2⟩ := h1.eatN hb
    obtain ⟨c', e3, h3⟩ := (begin_ h2).eatN hc
    exact ⟨c', ⟨a', e1, n, by rw [htw]; exact hn, b', by rw [htw]; exact e2, e3⟩, h3⟩

theorem eatTrivias_toks (s : Sink) : s.eatTrivias.toks = s.toks.dropWhile (·.kind.isTrivia) := by
  unfold Sink.eatTrivias
  suffices ∀ m (s : Sink), s.toks.length ≤ m → (Sink.eatTrivias.go m s).toks = s.toks.dropWhile (·.kind.isTrivia) from
    this _ s (Nat.le_refl _)
  intro m
  induction m with
  | zero =>
    intro s hl
    have h0 : s.toks = [] := List.length_eq_zero_iff.mp (by omega)
    simp [Sink.eatTrivias.go, h0]
  | succ m ih =>
    intro s hl
    unfold Sink.eatTrivias.go
    cases hts : s.toks with
    | nil => simp [hts]
    | cons t ts =>
      rw [hts, List.length_cons] at hl
      simp only
      split
      · rename_i htr
        rw [ih _ (by simp [Sink.doToken, hts]; omega)]
        simp [Sink.doToken, hts, htr]
      · rename_i htr
        simp [hts, htr]

theorem takeWhile_dropWhile {α : Type} (p : α → Bool) (l : List α) : (l.dropWhile p).takeWhile p = [] := by
  induction l with
  | nil => rfl
  | cons x xs ih => by_cases hx : p x = true <;> simp [hx, ih]

theorem Sim.token {k : SyntaxKind} {n : Nat} {s1 : Sink} (h : Sim f ((k, n) :: ns) s s') (hs : s.token k n = some s1) :
    ∃ s1', s'.token k n = some s1' ∧ Sim f ns s1 s1' := by
  unfold Sink.token at hs ⊢
  simp only [Option.bind_eq_bind, Option.bind_eq_some_iff] at hs ⊢
  obtain ⟨a, ha, hb⟩ := hs
  obtain ⟨a', e1, h1, -⟩ := h.leave ha
  have h2 := h1.eatTrivias
  refine ⟨a'.eatTrivias.doToken k n, ⟨a', e1, ?_⟩, ?_⟩
  · have hl : a'.eatTrivias.toks.length = a.eatTrivias.toks.length := by rw [h2.toks, relabelPieces_length]
    split at hb
    · rw [if_pos (by omega)]; rfl
    · cases hb
  · split at hb
    · cases hb
      have hd : a.eatTrivias.toks.takeWhile (·.kind.isTrivia) = [] := by
        rw [eatTrivias_toks]
        exact takeWhile_dropWhile _ _
      have hd2 : a.eatTrivias.toks.dropWhile (·.kind.isTrivia) = a.eatTrivias.toks := by
        have := List.takeWhile_append_dropWhile (p := fun p : Piece => p.kind.isTrivia) (l := a.eatTrivias.toks)
        rw [hd] at this
        exact this
      have hw := h2.whole
      simp only [Whole, hd, hd2, texts_nil, blen, Nat.add_zero] at hw
      exact h2.doToken hw.1 hw.2
    · cases hb

theorem Sim.fin {s1 : Sink} (h : Sim f ns s s') (hs : s.finishNode = some s1) :
    ∃ s1', s'.finishNode = some s1' ∧ Sim f ns s1 s1' := by
  obtain ⟨s1', e, h1, -⟩ := h.leave hs
  exact ⟨s1', e, h1⟩

theorem Sim.run {steps : List Step} {s1 : Sink} (h : Sim f (stepTokens steps ++ ns) s s') (hs : s.run steps = some s1) :
    ∃ s1', s'.run steps = some s1' ∧ Sim f ns s1 s1' := by
  induction steps generalizing s s' with
  | nil => cases hs; exact ⟨s', rfl, h⟩
  | cons x xs ih =>
    simp only [Sink.run, Option.bind_eq_some_iff] at hs ⊢
    obtain ⟨t, ht, hr⟩ := hs
    cases x with
    | start k =>
      obtain ⟨t', e, h1⟩ := h.start ht
      obtain ⟨u, e2, h2⟩ := ih h1 hr
      exact ⟨u, ⟨t', e, e2⟩, h2⟩
    | finish =>
      obtain ⟨t', e, h1⟩ := h.fin ht
      obtain ⟨u, e2, h2⟩ := ih h1 hr
      exact ⟨u, ⟨t', e, e2⟩, h2⟩
    | token k n =>
      obtain ⟨t', e, h1⟩ := Sim.token (k := k) (n := n) (ns := stepTokens xs ++ ns) h ht
      obtain ⟨u, e2, h2⟩ := ih h1 hr
      exact ⟨u, ⟨t', e, e2⟩, h2⟩
    | error =>
      cases ht
      have h1 : Sim f (stepTokens xs ++ ns) s.error s'.error := ⟨h.toks, h.state, h.parents, h.children, h.pos, h.spares,
        by simp [Sink.error, h.errors], h.whole⟩
      obtain ⟨u, e2, h2⟩ := ih h1 hr
      exact ⟨u, ⟨s'.error, rfl, e2⟩, h2⟩

theorem Sim.finish {g : Green} {errs : List Nat} (h : Sim f ns s s') (hs : s.finish = some (g, errs)) :
    ∃ errs', s'.finish = some (g.relabel f 0, errs') ∧ errs'.length = errs.length := by
  unfold Sink.finish at hs ⊢
  rw [h.state]
  cases hst : s.state with
  | PendingStart => rw [hst] at hs; cases hs
  | Normal => rw [hst] at hs; cases hs
  | PendingFinish =>
    rw [hst] at hs
    simp only [Option.bind_eq_bind, Option.bind_eq_some_iff, Option.pure_def, Option.some.injEq, Prod.mk.injEq] at hs ⊢
    obtain ⟨b, hb, g', hg, rfl, rfl⟩ := hs
    have h0 : Sim f ns { s with state := .Normal } { s' with state := .Normal } :=
      ⟨h.toks, rfl, h.parents, h.children, h.pos, h.spares, h.errors, h.whole⟩
    obtain ⟨b', e1, -, e3, -⟩ := h0.eatTrivias.finishBuilder hb
    refine ⟨_, ⟨b', e1, g'.relabel f 0, ?_, rfl, rfl⟩, h0.eatTrivias.errors⟩
    unfold Builder.finish at hg ⊢
    rw [e3]
    split at hg
    · rename_i k cs hc
      cases hg
      rw [hc]
      simp [Green.relabelList, Green.relabel]
    · cases hg

/-- The tree of the new pieces is the tree of the old ones with the new texts. -/
theorem buildTree_relabel {ps : List Piece} {events : List Event} {steps : List Step} {g : Green} {errs : List Nat}
    (hp : process events = some steps) (hs : Spares f 0 ps) (hw : Whole f 0 ps (stepTokens steps))
    (h : buildTree ps events = some (g, errs)) :
    ∃ errs', buildTree (relabelPieces f 0 ps) events = some (g.relabel f 0, errs') ∧ errs'.length = errs.length := by
  unfold buildTree at h ⊢
  rw [hp] at h ⊢
  simp only [Option.bind_eq_bind, Option.bind_some, Option.bind_eq_some_iff] at h ⊢
  obtain ⟨s, hr, hf⟩ := h
  have h0 : Sim f (stepTokens steps ++ []) (Sink.new ps) (Sink.new (relabelPieces f 0 ps)) :=
    ⟨rfl, rfl, rfl, rfl, rfl, hs, rfl, by rw [List.append_nil]; exact hw⟩
  obtain ⟨s', e, h1⟩ := h0.run hr
  obtain ⟨errs', h2, h3⟩ := h1.finish hf
  exact ⟨errs', ⟨s', e, h2⟩, h3⟩

/-! ### The source -/

/-- The text is none of the words the grammar looks for. -/
def Plain (t : List Char) : Prop := ∀ w ∈ words, t ≠ w.toList

/-- The first token of some pieces is as far away after the new texts. -/
theorem withOffsets_head {o o' : Nat} {ps : List Piece} (hs : Spares f o ps) :
    (withOffsets o ps = [] ∧ withOffsets o' (relabelPieces f o ps) = []) ∨
    ∃ d x y xs ys, withOffsets o ps = (x, o + d) :: xs ∧ withOffsets o' (relabelPieces f o ps) = (y, o' + d) :: ys := by
  induction ps generalizing o o' with
  | nil => exact .inl ⟨rfl, rfl⟩
  | cons p ps ih =>
    by_cases hp : p.kind.isTrivia = true
    · have h0 : f o = none := by
        cases hf : f o with
        | none => rfl
        | some y => exact absurd (hs.1 (by simp [hf])) (by simp [hp])
      simp only [relabelPieces, withOffsets, hp, if_true, h0, Option.getD_none]
      rcases ih (o := o + blen p.text) (o' := o' + blen p.text) hs.2 with h | ⟨d, x, y, xs, ys, h1, h2⟩
      · exact .inl h
      · exact .inr ⟨blen p.text + d, x, y, xs, ys, by rw [h1, Nat.add_assoc], by rw [h2, Nat.add_assoc]⟩
    · right
      exact ⟨0, p, ⟨p.kind, (f o).getD p.text⟩, withOffsets (o + blen p.text) ps,
        withOffsets (o' + blen ((f o).getD p.text)) (relabelPieces f (o + blen p.text) ps),
        by simp [withOffsets, if_neg hp], by simp [relabelPieces, withOffsets, if_neg hp]⟩

/-- The distance to the token before is the same. -/
def SameGap (o o' : Nat) : Option Nat → Option Nat → Prop
  | none, none => True
  | some e, some e' => o - e = o' - e' ∧ e ≤ o ∧ e' ≤ o'
  | _, _ => False

theorem SameGap.add {o o' n : Nat} {e e' : Option Nat} (h : SameGap o o' e e') : SameGap (o + n) (o' + n) e e' := by
  unfold SameGap at h ⊢
  split at h
  · trivial
  · refine ⟨?_, ?_, ?_⟩ <;> omega
  · exact h.elim

theorem sourceFrom_like {o o' : Nat} {e e' : Option Nat} {ps : List Piece} (he : SameGap o o' e e') (hs : Spares f o ps)
    (hp : Touches (fun p => Plain p.text) f o ps) (hy : ∀ o y, f o = some y → Plain y) :
    List.Forall₂ PTok.Like (sourceFrom e (withOffsets o ps)) (sourceFrom e' (withOffsets o' (relabelPieces f o ps))) := by
  induction ps generalizing o o' e e' with
  | nil => exact .nil
  | cons p ps ih =>
    by_cases ht : p.kind.isTrivia = true
    · have h0 : f o = none := by
        cases hf : f o with
        | none => rfl
        | some y => exact absurd (hs.1 (by simp [hf])) (by simp [ht])
      simp only [relabelPieces, withOffsets, ht, if_true, h0, Option.getD_none]
      exact ih he.add hs.2 hp.2
    · simp only [relabelPieces, withOffsets, if_neg ht, sourceFrom]
      refine .cons ⟨rfl, ?_, ?_, ?_⟩ (ih ⟨by omega, Nat.le_refl _, Nat.le_refl _⟩ hs.2 hp.2)
      · simp only
        rcases withOffsets_head (o' := o' + blen ((f o).getD p.text)) hs.2 with ⟨h1, h2⟩ | ⟨d, x, y, xs, ys, h1, h2⟩
        · rw [h1, h2]
        · rw [h1, h2]
          simp only
          rw [Bool.eq_iff_iff, beq_iff_eq, beq_iff_eq]
          omega
      · unfold SameGap at he
        split at he
        · rfl
        · exact he.1
        · exact he.elim
      · intro w hw
        simp only
        cases hf : f o with
        | none => simp
        | some y =>
          have h1 := hp.1 (by simp [hf]) w hw
          have h2 := hy o y hf w hw
          simp only [Option.getD_some]
          exact ⟨fun h => absurd h h1, fun h => absurd h h2⟩

/-- Pieces with other names for some identifiers look the same to the grammar. -/
theorem source_alike {ps : List Piece} {debug : Bool} (hs : Spares f 0 ps) (hp : Touches (fun p => Plain p.text) f 0 ps)
    (hy : ∀ o y, f o = some y → Plain y) : Alike ⟨source ps, debug⟩ ⟨source (relabelPieces f 0 ps), debug⟩ :=
  ⟨rfl, sourceFrom_like (by trivial) hs hp hy⟩

/-! ### The leaves that get new names -/

/-- The new names are for whole leaves that meet `Q`. -/
def Aims (Q : Piece → Prop) (f : Nat → Option (List Char)) : Nat → List Piece → Prop
  | _, [] => True
  | o, l :: ls => ((f o).isSome = true → Q l) ∧ (∀ q, o < q → q < o + blen l.text → f q = none) ∧ Aims Q f (o + blen l.text) ls

theorem Aims.append {Q : Piece → Prop} {o : Nat} {a b : List Piece} :
    Aims Q f o (a ++ b) ↔ Aims Q f o a ∧ Aims Q f (o + blen (texts a)) b := by
  induction a generalizing o with
  | nil => simp [Aims, blen]
  | cons p ps ih => simp [Aims, ih, blen_append, Nat.add_assoc, and_assoc]

theorem relabelPieces_none {o : Nat} {ps : List Piece} (h : ∀ q, o ≤ q → q < o + blen (texts ps) → f q = none)
    (hne : ∀ p ∈ ps, p.text ≠ []) : relabelPieces f o ps = ps ∧ Touches (fun _ => False) f o ps := by
  induction ps generalizing o with
  | nil => exact ⟨rfl, trivial⟩
  | cons p ps ih =>
    have hpos : 0 < blen p.text := Lexer.blen_pos (hne p List.mem_cons_self)
    simp only [texts_cons, blen_append] at h
    obtain ⟨h1, h2⟩ := ih (o := o + blen p.text) (fun q hq hq' => h q (by omega) (by omega))
      (fun q hq => hne q (List.mem_cons_of_mem _ hq))
    have h0 := h o (Nat.le_refl _) (by omega)
    exact ⟨by simp [relabelPieces, h0, h1], by simp [h0], h2⟩

/-- The group of an identifier is one piece. -/
theorem Group.ident {run : List Piece} (h : Group .IDENT run) :
    ∃ t, run = [t] ∧ (t.kind = .IDENT ∨ t.kind = .UNDERSCORE ∨ t.kind = .FRIEND_KW) := by
  have key : ∀ k, Group k run → k = .IDENT → ∃ t, run = [t] ∧ (t.kind = .IDENT ∨ t.kind = .UNDERSCORE ∨ t.kind = .FRIEND_KW) := by
    intro k h hk
    cases h with
    | same t => exact ⟨t, rfl, .inl hk⟩
    | operator _ w _ hw _ =>
      have : ∀ x ∈ operators, x.1 ≠ .IDENT := by decide +kernel
      exact absurd hk (this _ hw)
    | word _ w t hw _ =>
      have : ∀ x ∈ contextual, x.1 ≠ .IDENT := by decide +kernel
      exact absurd hk (this _ hw)
    | name t ht => exact ⟨t, rfl, .inr ht⟩
    | wildcard run _ => cases hk
  exact key _ h rfl

/-- A leaf that may get a new name: an identifier that is none of the words of the grammar and not reserved. -/
structure Renamable (l : Piece) : Prop where
  ident : l.kind = .IDENT
  plain : Plain l.text
  free : l.text ≠ ['_'] ∧ l.text ≠ ['f', 'r', 'i', 'e', 'n', 'd']

theorem aims_pieces {ps : List Piece} {ns : List (SyntaxKind × Nat)} {o : Nat} (hf : ∀ p ∈ ps, Fine p) (hfit : Fits ps ns) (hg : Grouped ps ns)
    (h : Aims Renamable f o (glue ps ns)) : Whole f o ps ns ∧ Touches Renamable f o ps := by
  have trivias : ∀ {o : Nat} {ts : List Piece}, (∀ t ∈ ts, t.kind.isTrivia = true) → Aims Renamable f o ts → Touches Renamable f o ts := by
    intro o ts ht ha
    induction ts generalizing o with
    | nil => trivial
    | cons t ts ih => exact ⟨ha.1, ih (fun x hx => ht x (List.mem_cons_of_mem _ hx)) ha.2.2⟩
  induction ns generalizing ps o with
  | nil => exact ⟨trivial, trivias hfit h⟩
  | cons m ns ih =>
    obtain ⟨k, n⟩ := m
    simp only [glue, Aims.append, Aims] at h
    obtain ⟨h1, h2, h3, h4⟩ := h
    obtain ⟨g1, g2⟩ := hg
    have hf' : ∀ p ∈ ps.dropWhile (·.kind.isTrivia), Fine p := fun t ht => hf t ((List.dropWhile_sublist _).mem ht)
    obtain ⟨w, t⟩ := ih (fun p hp => hf' p (List.mem_of_mem_drop hp)) hfit.2 g2 h4
    have hrun : (f (o + blen (texts (ps.takeWhile (·.kind.isTrivia))))).getD (texts ((ps.dropWhile (·.kind.isTrivia)).take n)) =
        texts (relabelPieces f (o + blen (texts (ps.takeWhile (·.kind.isTrivia)))) ((ps.dropWhile (·.kind.isTrivia)).take n)) ∧
        Touches Renamable f (o + blen (texts (ps.takeWhile (·.kind.isTrivia)))) ((ps.dropWhile (·.kind.isTrivia)).take n) := by
      by_cases hsome : (f (o + blen (texts (ps.takeWhile (·.kind.isTrivia))))).isSome = true
      · have hr := h2 hsome
        have hk : k = .IDENT := hr.ident
        subst hk
        obtain ⟨t, e, hkind⟩ := g1.ident
        have hft : Fine t := hf' t (List.mem_of_mem_take (by rw [e]; exact List.mem_singleton.2 rfl))
        rw [e] at hr ⊢
        refine ⟨by simp [relabelPieces], ⟨fun _ => ?_, trivial⟩⟩
        have ht : ((([t] : List Piece).map Piece.text).flatten) = t.text := by simp
        rw [ht] at hr
        refine ⟨?_, hr.plain, hr.free⟩
        obtain ⟨rest, hd⟩ := hft.described
        rcases hkind with hk | hk | hk
        · exact hk
        · exact absurd (hd.keyword ['_'] (by rw [hk]; decide)).1 hr.free.1
        · exact absurd (hd.keyword ['f', 'r', 'i', 'e', 'n', 'd'] (by rw [hk]; decide)).1 hr.free.2
      · have h0 : f (o + blen (texts (ps.takeWhile (·.kind.isTrivia)))) = none := by simpa using hsome
        obtain ⟨e1, e2⟩ := relabelPieces_none (f := f) (o := o + blen (texts (ps.takeWhile (·.kind.isTrivia))))
          (ps := (ps.dropWhile (·.kind.isTrivia)).take n)
          (fun q hq hq' => by
            by_cases hqe : q = o + blen (texts (ps.takeWhile (·.kind.isTrivia)))
            · rw [hqe, h0]
            · exact h3 q (by omega) hq')
          (fun p hp => (hf' p (List.mem_of_mem_take hp)).ne)
        exact ⟨by rw [h0, e1]; rfl, e2.mono fun _ _ h => h.elim⟩
    refine ⟨⟨hrun.1, w⟩, ?_⟩
    have hsplit : ps = ps.takeWhile (·.kind.isTrivia) ++ ((ps.dropWhile (·.kind.isTrivia)).take n ++
        (ps.dropWhile (·.kind.isTrivia)).drop n) := by
      rw [List.take_append_drop, List.takeWhile_append_dropWhile]
    rw [hsplit, Touches.append, Touches.append]
    exact ⟨trivias (fun t ht => by simpa using List.mem_takeWhile_imp ht) h1, hrun.2, t⟩

end

end Verif.Parser
