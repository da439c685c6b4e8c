import Verif.Parser.Sink
import Verif.Parser.EventLemmas

/-! The sink builds a tree for every balanced sequence of calls that fits the tokens. -/

namespace Verif.Parser
open Verif.Syntax (SyntaxKind)

/-- The depth after a sequence of calls; `none` if a node is finished that was not started. -/
def depth : Nat → List Step → Option Nat
  | n, [] => some n
  | n, .start _ :: xs => depth (n + 1) xs
  | 0, .finish :: _ => none
  | n + 1, .finish :: xs => depth n xs
  | n, .token _ _ :: xs => depth n xs
  | n, .error :: xs => depth n xs

/-- Every start has its finish. -/
def Bal (steps : List Step) : Prop := ∀ n, depth n steps = some n

theorem depth_append (n : Nat) (a b : List Step) : depth n (a ++ b) = (depth n a).bind fun m => depth m b := by
  induction a generalizing n with
  | nil => simp [depth]
  | cons x xs ih =>
    cases x with
    | start k => simp only [List.cons_append, depth, ih]
    | finish => cases n <;> simp [List.cons_append, depth, ih]
    | token k m => simp only [List.cons_append, depth, ih]
    | error => simp only [List.cons_append, depth, ih]

theorem Bal.nil : Bal [] := fun _ => rfl
theorem Bal.token (k : SyntaxKind) (n : Nat) : Bal [.token k n] := fun _ => rfl
theorem Bal.error : Bal [.error] := fun _ => rfl

theorem Bal.append {a b : List Step} (ha : Bal a) (hb : Bal b) : Bal (a ++ b) := by
  intro n
  rw [depth_append, ha n, Option.bind_some, hb n]

theorem Bal.node {k : SyntaxKind} {a : List Step} (ha : Bal a) : Bal (.start k :: a ++ [.finish]) := by
  intro n
  simp [depth, depth_append, ha (n + 1)]

theorem Bal.insert {k : SyntaxKind} {p q : List Step} (hp : Bal p) (hq : Bal (.start k :: q)) : Bal (.start k :: (p ++ q)) := by
  intro n
  have := hq n
  simp only [depth] at this ⊢
  rw [depth_append, hp (n + 1), Option.bind_some, this]

/-- The tokens of a sequence of calls, of a list of events. -/
def stepTokens : List Step → List (SyntaxKind × Nat)
  | [] => []
  | .token k n :: xs => (k, n) :: stepTokens xs
  | .start _ :: xs => stepTokens xs
  | .finish :: xs => stepTokens xs
  | .error :: xs => stepTokens xs

def eventTokens : List Event → List (SyntaxKind × Nat)
  | [] => []
  | .token k n :: xs => (k, n) :: eventTokens xs
  | .start _ _ :: xs => eventTokens xs
  | .finish :: xs => eventTokens xs
  | .error :: xs => eventTokens xs

theorem stepTokens_append (a b : List Step) : stepTokens (a ++ b) = stepTokens a ++ stepTokens b := by
  induction a with
  | nil => rfl
  | cons x xs ih => cases x <;> simp [stepTokens, ih]

theorem eventTokens_append (a b : List Event) : eventTokens (a ++ b) = eventTokens a ++ eventTokens b := by
  induction a with
  | nil => rfl
  | cons x xs ih => cases x <;> simp [eventTokens, ih]

theorem eventTokens_set {es : List Event} {i : Nat} {k : SyntaxKind} {fp : Option Nat} {k' fp'}
    (h : es[i]? = some (.start k fp)) : eventTokens (es.set i (.start k' fp')) = eventTokens es := by
  induction es generalizing i with
  | nil => rfl
  | cons e es ih =>
    cases i with
    | zero => simp at h; subst h; rfl
    | succ i =>
      simp only [List.getElem?_cons_succ] at h
      cases e <;> simp [eventTokens, ih h]

theorem follow_tokens {fuel idx : Nat} {rest : List Event} {ks : List SyntaxKind} {rest' : List Event}
    (h : follow fuel idx rest = some (ks, rest')) : eventTokens rest' = eventTokens rest := by
  induction fuel generalizing idx rest ks rest' with
  | zero => simp [follow] at h
  | succ n ih =>
    unfold follow at h
    cases hk : rest[idx]? with
    | none => rw [hk] at h; simp at h
    | some e =>
      rw [hk] at h
      cases e with
      | start k fp =>
        have hs := eventTokens_set (k' := .TOMBSTONE) (fp' := none) hk
        cases fp with
        | none => simp at h; rw [← h.2]; exact hs
        | some d =>
          simp only [Option.map_eq_some_iff] at h
          obtain ⟨⟨a, b⟩, h1, h2⟩ := h
          simp at h2
          rw [← h2.2, ih h1]; exact hs
      | finish => simp at h
      | token => simp at h
      | error => simp at h

theorem stepTokens_opened (ks : List SyntaxKind) : stepTokens (opened ks) = [] := by
  unfold opened
  generalize (ks.reverse.filter _) = l
  induction l with
  | nil => rfl
  | cons k ks ih => simpa [stepTokens] using ih

theorem processN_tokens {n : Nat} {es : List Event} {steps : List Step} (hn : es.length ≤ n)
    (h : processN n es = some steps) : stepTokens steps = eventTokens es := by
  induction n generalizing es steps with
  | zero =>
    have : es = [] := List.length_eq_zero_iff.mp (by omega)
    subst this
    simp [processN] at h; subst h; rfl
  | succ n ih =>
    cases es with
    | nil => simp [processN] at h; subst h; rfl
    | cons e es =>
      simp only [List.length_cons] at hn
      cases e with
      | start k fp =>
        simp only [processN, Option.bind_eq_bind, Option.bind_eq_some_iff, Option.pure_def, Option.some.injEq] at h
        obtain ⟨⟨ks, es'⟩, h1, s2, h2, h3⟩ := h
        have hl : es'.length = es.length := chain_length h1
        have ht : eventTokens es' = eventTokens es := by
          rcases fp with _ | _ | d
          · simp [chain] at h1; rw [h1.2]
          · simp [chain] at h1; rw [h1.2]
          · simp only [chain, Option.map_eq_some_iff] at h1
            obtain ⟨⟨a, b⟩, g1, g2⟩ := h1
            simp at g2
            rw [← g2.2, follow_tokens g1]
        rw [← h3, stepTokens_append, stepTokens_opened, List.nil_append, ih (es := es') (by omega) h2, ht]
        rfl
      | finish =>
        simp only [processN, Option.map_eq_some_iff] at h
        obtain ⟨x, h1, rfl⟩ := h
        have := ih (by omega) h1
        simpa [stepTokens, eventTokens] using this
      | token k m =>
        simp only [processN, Option.map_eq_some_iff] at h
        obtain ⟨x, h1, rfl⟩ := h
        simp only [stepTokens, eventTokens, ih (by omega) h1]
      | error =>
        simp only [processN, Option.map_eq_some_iff] at h
        obtain ⟨x, h1, rfl⟩ := h
        have := ih (by omega) h1
        simpa [stepTokens, eventTokens] using this

theorem Denotes.tokens {seg : List Event} {steps : List Step} (h : Denotes seg steps) :
    stepTokens steps = eventTokens seg := by
  have h1 := h []
  simp only [List.append_nil] at h1
  have h2 : process [] = some [] := rfl
  rw [h2] at h1
  simp only [Option.map_some, List.append_nil] at h1
  exact processN_tokens (Nat.le_refl _) h1

/-- The tokens fit the pieces: `n` pieces are left for each of them, and nothing but trivia at the end. -/
def Fits : List Piece → List (SyntaxKind × Nat) → Prop
  | toks, [] => ∀ t ∈ toks, t.kind.isTrivia = true
  | toks, (_, n) :: ns =>
    n ≤ (toks.dropWhile (·.kind.isTrivia)).length ∧ Fits ((toks.dropWhile (·.kind.isTrivia)).drop n) ns

/-- The leaves the tree must have: the trivia as they are, and for each token its pieces glued. -/
def glue : List Piece → List (SyntaxKind × Nat) → List Piece
  | toks, [] => toks
  | toks, (k, n) :: ns =>
    toks.takeWhile (·.kind.isTrivia) ++
      ⟨k, (((toks.dropWhile (·.kind.isTrivia)).take n).map Piece.text).flatten⟩ ::
        glue ((toks.dropWhile (·.kind.isTrivia)).drop n) ns

theorem glue_text (toks : List Piece) (ns : List (SyntaxKind × Nat)) :
    ((glue toks ns).map Piece.text).flatten = (toks.map Piece.text).flatten := by
  induction ns generalizing toks with
  | nil => rfl
  | cons m ns ih =>
    obtain ⟨k, n⟩ := m
    have h1 : toks.takeWhile (·.kind.isTrivia) ++ ((toks.dropWhile (·.kind.isTrivia)).take n ++
        (toks.dropWhile (·.kind.isTrivia)).drop n) = toks := by
      rw [List.take_append_drop, List.takeWhile_append_dropWhile]
    have h2 := congrArg (fun l => (l.map Piece.text).flatten) h1
    simp only [List.map_append, List.flatten_append] at h2
    rw [← h2]
    simp only [glue, List.map_append, List.map_cons, List.flatten_append, List.flatten_cons, ih]

theorem glue_cons_trivia {t : Piece} (ht : t.kind.isTrivia = true) (toks : List Piece) (ns : List (SyntaxKind × Nat)) :
    glue (t :: toks) ns = t :: glue toks ns := by
  cases ns with
  | nil => rfl
  | cons m ns => simp [glue, ht]

theorem fits_cons_trivia {t : Piece} (ht : t.kind.isTrivia = true) (toks : List Piece) (ns : List (SyntaxKind × Nat)) :
    Fits (t :: toks) ns ↔ Fits toks ns := by
  cases ns with
  | nil => simp [Fits, ht]
  | cons m ns => simp [Fits, ht]

theorem leavesList_append (a b : List Green) : Green.leavesList (a ++ b) = Green.leavesList a ++ Green.leavesList b := by
  induction a with
  | nil => simp [Green.leavesList]
  | cons g gs ih => simp [Green.leavesList, ih]

/-- The builder inside the root: the first children of the open nodes are in order. -/
structure Builder.Inv (b : Builder) (root : SyntaxKind) (n : Nat) : Prop where
  shape : ∃ ups : List (SyntaxKind × Nat), b.parents = ups ++ [(root, 0)] ∧ ups.length = n
  sorted : b.parents.Pairwise fun x y => y.2 ≤ x.2
  bound : ∀ x ∈ b.parents, x.2 ≤ b.children.length

theorem Builder.Inv.token {b : Builder} {root : SyntaxKind} {n : Nat} (h : b.Inv root n) (k : SyntaxKind) (t : List Char) :
    (b.token k t).Inv root n :=
  ⟨h.shape, h.sorted, fun x hx => by have := h.bound x hx; simp [Builder.token]; omega⟩

theorem Builder.Inv.startNode {b : Builder} {root : SyntaxKind} {n : Nat} (h : b.Inv root n) (k : SyntaxKind) :
    (b.startNode k).Inv root (n + 1) := by
  obtain ⟨ups, h1, h2⟩ := h.shape
  refine ⟨⟨(k, b.children.length) :: ups, by simp [Builder.startNode, h1], by simp [h2]⟩, ?_, ?_⟩
  · simp only [Builder.startNode, List.pairwise_cons]
    exact ⟨fun y hy => h.bound y hy, h.sorted⟩
  · intro x hx
    simp only [Builder.startNode, List.mem_cons] at hx
    rcases hx with rfl | hx
    · exact Nat.le_refl _
    · exact h.bound x hx

theorem Builder.Inv.finishNode {b : Builder} {root : SyntaxKind} {n : Nat} (h : b.Inv root (n + 1)) :
    ∃ b', b.finishNode = some b' ∧ b'.Inv root n ∧ Green.leavesList b'.children = Green.leavesList b.children := by
  obtain ⟨ups, h1, h2⟩ := h.shape
  obtain ⟨⟨k, first⟩, ups', rfl⟩ := List.exists_cons_of_length_eq_add_one h2
  have hb : first ≤ b.children.length := h.bound (k, first) (by rw [h1]; simp)
  have hs := h.sorted
  rw [h1, List.cons_append, List.pairwise_cons] at hs
  refine ⟨⟨ups' ++ [(root, 0)], b.children.take first ++ [.node k (b.children.drop first)]⟩, ?_, ⟨⟨ups', rfl, ?_⟩, hs.2, ?_⟩, ?_⟩
  · unfold Builder.finishNode
    rw [h1, List.cons_append]
  · simpa using h2
  · intro x hx
    have := hs.1 x hx
    simp only [List.length_append, List.length_take, List.length_singleton]
    simp only at this
    omega
  · simp only [leavesList_append, Green.leavesList, Green.leaves, List.append_nil]
    rw [← leavesList_append, List.take_append_drop]

theorem Builder.Inv.finishRoot {b : Builder} {root : SyntaxKind} (h : b.Inv root 0) :
    ∃ b' cs, b.finishNode = some b' ∧ b'.finish = some (.node root cs) ∧
      Green.leavesList cs = Green.leavesList b.children := by
  obtain ⟨ups, h1, h2⟩ := h.shape
  have : ups = [] := List.length_eq_zero_iff.mp h2
  subst this
  refine ⟨⟨[], [.node root b.children]⟩, b.children, ?_, rfl, rfl⟩
  unfold Builder.finishNode
  rw [h1]; simp

/-- The sink inside the root at depth `n`, with `L` the leaves it must have produced at the end. -/
structure Sink.Inv (s : Sink) (root : SyntaxKind) (n : Nat) (ns : List (SyntaxKind × Nat)) (L : List Piece) : Prop where
  started : s.state ≠ .PendingStart
  builder : s.builder.Inv root (n + if s.state = .PendingFinish then 1 else 0)
  fits : Fits s.toks ns
  leaves : Green.leavesList s.builder.children ++ glue s.toks ns = L
  comments : ∀ p ∈ s.toks, p.kind = .COMMENT → (Comments.fromText p.text).isSome

theorem Sink.Inv.eatOne {s : Sink} {root : SyntaxKind} {n : Nat} {ns : List (SyntaxKind × Nat)} {L : List Piece} (h : s.Inv root n ns L)
    {t : Piece} {ts : List Piece} (ht : s.toks = t :: ts) (htr : t.kind.isTrivia = true) :
    (s.doToken t.kind 1).Inv root n ns L := by
  refine ⟨h.started, ?_, ?_, ?_, ?_⟩
  · exact h.builder.token _ _
  · have := h.fits
    rw [ht, fits_cons_trivia htr] at this
    simpa [Sink.doToken, ht] using this
  · have := h.leaves
    rw [ht, glue_cons_trivia htr] at this
    rw [← this]
    simp [Sink.doToken, Builder.token, leavesList_append, Green.leavesList, Green.leaves, ht]
  · intro p hp
    apply h.comments
    simp only [Sink.doToken] at hp
    exact List.mem_of_mem_drop hp

theorem Sink.Inv.eatTrivias {s : Sink} {root : SyntaxKind} {n : Nat} {ns : List (SyntaxKind × Nat)} {L : List Piece} (h : s.Inv root n ns L) :
    s.eatTrivias.Inv root n ns L ∧ s.eatTrivias.toks = s.toks.dropWhile (·.kind.isTrivia) ∧
      s.eatTrivias.state = s.state := by
  unfold Sink.eatTrivias
  suffices ∀ m (s : Sink), s.toks.length ≤ m → s.Inv root n ns L → (Sink.eatTrivias.go m s).Inv root n ns L ∧
      (Sink.eatTrivias.go m s).toks = s.toks.dropWhile (·.kind.isTrivia) ∧ (Sink.eatTrivias.go m s).state = s.state from
    this _ s (Nat.le_refl _) h
  intro m
  induction m with
  | zero =>
    intro s hl h
    have h0 : s.toks = [] := List.length_eq_zero_iff.mp (by omega)
    exact ⟨h, by simp [Sink.eatTrivias.go, h0], rfl⟩
  | succ m ih =>
    intro s hl h
    unfold Sink.eatTrivias.go
    cases hts : s.toks with
    | nil => exact ⟨h, by simp [hts], rfl⟩
    | cons t ts =>
      simp only
      rw [hts] at hl
      simp only [List.length_cons] at hl
      split
      · rename_i htr
        obtain ⟨i1, i2, i3⟩ := ih (s.doToken t.kind 1) (by simp [Sink.doToken, hts]; omega) (h.eatOne hts htr)
        refine ⟨i1, ?_, i3⟩
        rw [i2]
        simp [Sink.doToken, hts, htr]
      · rename_i htr
        exact ⟨h, by simp [hts, htr], rfl⟩

theorem Sink.Inv.eatN {s : Sink} {root : SyntaxKind} {n : Nat} {ns : List (SyntaxKind × Nat)} {L : List Piece} (h : s.Inv root n ns L)
    (m : Nat) (hm : m ≤ (s.toks.takeWhile (·.kind.isTrivia)).length) :
    ∃ s', Sink.eatNTrivias m s = some s' ∧ s'.Inv root n ns L ∧ s'.state = s.state ∧
      (s'.toks.takeWhile (·.kind.isTrivia)).length = (s.toks.takeWhile (·.kind.isTrivia)).length - m := by
  induction m generalizing s with
  | zero => exact ⟨s, rfl, h, rfl, rfl⟩
  | succ m ih =>
    cases hts : s.toks with
    | nil => rw [hts] at hm; simp at hm
    | cons t ts =>
      rw [hts] at hm
      by_cases htr : t.kind.isTrivia = true
      · simp only [List.takeWhile_cons, htr, if_true, List.length_cons] at hm
        obtain ⟨s', h1, h2, h3, h4⟩ := ih (s := s.doToken t.kind 1) (h.eatOne hts htr) (by simp [Sink.doToken, hts]; omega)
        refine ⟨s', ?_, h2, h3, ?_⟩
        · unfold Sink.eatNTrivias
          rw [hts]
          simp only [htr, if_true, h1]
        · rw [h4]
          simp [Sink.doToken, hts, htr]
      · simp [htr] at hm

theorem Sink.Inv.leave {s : Sink} {root : SyntaxKind} {n : Nat} {ns : List (SyntaxKind × Nat)} {L : List Piece} (h : s.Inv root n ns L) :
    ∃ s', s.leave .Normal = some s' ∧ s'.Inv root n ns L ∧ s'.state = .Normal := by
  unfold Sink.leave
  cases hst : s.state with
  | PendingStart => exact absurd hst h.started
  | Normal =>
    refine ⟨{ s with state := .Normal }, rfl, ⟨by simp, ?_, h.fits, h.leaves, h.comments⟩, rfl⟩
    have := h.builder
    rw [hst] at this
    simpa using this
  | PendingFinish =>
    have hb := h.builder
    rw [hst] at hb
    simp only [if_true] at hb
    obtain ⟨b', h1, h2, h3⟩ := hb.finishNode
    refine ⟨{ s with state := .Normal, builder := b' }, by simp [h1], ⟨by simp, by simpa using h2, h.fits, ?_, h.comments⟩, rfl⟩
    simp only [h3, h.leaves]

theorem attachedLoop_le {l : List Piece} {i res : Nat} (hres : res ≤ i)
    (hc : ∀ p ∈ l, p.kind = .COMMENT → (Comments.fromText p.text).isSome) :
    ∃ r, attachedLoop l i res = some r ∧ r ≤ i + l.length := by
  induction l generalizing i res with
  | nil => exact ⟨res, rfl, by simpa using hres⟩
  | cons p rest ih =>
    have hrest : ∀ q ∈ rest, q.kind = .COMMENT → (Comments.fromText q.text).isSome :=
      fun q hq => hc q (List.mem_cons_of_mem _ hq)
    unfold attachedLoop
    simp only [List.length_cons]
    split
    · cases hr : rest.head? with
      | none => exact ⟨res, rfl, by omega⟩
      | some q =>
        simp only
        split
        · rename_i hq
          have hm : q ∈ rest := List.mem_of_mem_head? hr
          obtain ⟨c, hcq⟩ := Option.isSome_iff_exists.mp (hrest q hm hq)
          simp only [hcq, Option.bind_eq_bind, Option.bind_some]
          split
          · obtain ⟨r, h1, h2⟩ := ih (i := i + 1) (res := res) (by omega) hrest
            exact ⟨r, h1, by omega⟩
          · exact ⟨res, rfl, by omega⟩
        · exact ⟨res, rfl, by omega⟩
    · split
      · rename_i hp
        obtain ⟨c, hcq⟩ := Option.isSome_iff_exists.mp (hc p (by simp) hp)
        simp only [hcq, Option.bind_eq_bind, Option.bind_some]
        split
        · exact ⟨res, rfl, by omega⟩
        · obtain ⟨r, h1, h2⟩ := ih (i := i + 1) (res := i + 1) (by omega) hrest
          exact ⟨r, h1, by omega⟩
      · obtain ⟨r, h1, h2⟩ := ih (i := i + 1) (res := res) (by omega) hrest
        exact ⟨r, h1, by omega⟩

theorem nAttached_le (k : SyntaxKind) {l : List Piece}
    (hc : ∀ p ∈ l, p.kind = .COMMENT → (Comments.fromText p.text).isSome) :
    ∃ r, nAttachedTrivias k l = some r ∧ r ≤ l.length := by
  unfold nAttachedTrivias
  split
  · obtain ⟨r, h1, h2⟩ := attachedLoop_le (i := 0) (res := 0) (Nat.le_refl _) hc
    exact ⟨r, h1, by omega⟩
  · exact ⟨0, rfl, by omega⟩

theorem Sink.Inv.start {s : Sink} {root : SyntaxKind} {n : Nat} {ns : List (SyntaxKind × Nat)} {L : List Piece} (h : s.Inv root n ns L)
    (k : SyntaxKind) : ∃ s', s.startNode k = some s' ∧ s'.Inv root (n + 1) ns L := by
  obtain ⟨s1, h1, i1, st1⟩ := h.leave
  have hc : ∀ p ∈ (s1.toks.takeWhile (·.kind.isTrivia)).reverse, p.kind = .COMMENT → (Comments.fromText p.text).isSome := by
    intro p hp
    exact i1.comments p ((List.takeWhile_prefix _).subset (List.mem_reverse.mp hp))
  obtain ⟨r, hr, hle⟩ := nAttached_le k hc
  rw [List.length_reverse] at hle
  obtain ⟨s2, h2, i2, st2, len2⟩ := i1.eatN ((s1.toks.takeWhile (·.kind.isTrivia)).length - r) (by omega)
  have i3 : ({ s2 with builder := s2.builder.startNode k } : Sink).Inv root (n + 1) ns L := by
    refine ⟨i2.started, ?_, i2.fits, i2.leaves, i2.comments⟩
    have hb := i2.builder
    rw [st2, st1] at hb
    have := hb.startNode k
    simpa [st2, st1] using this
  obtain ⟨s4, h4, i4, -, -⟩ := i3.eatN r (by simp only; omega)
  refine ⟨s4, ?_, i4⟩
  unfold Sink.startNode
  rw [if_neg h.started]
  simp only [h1, Option.bind_eq_bind, Option.bind_some, hr, h2, h4]

theorem Sink.Inv.tok {s : Sink} {root : SyntaxKind} {n : Nat} {k : SyntaxKind} {m : Nat} {ns : List (SyntaxKind × Nat)} {L : List Piece}
    (h : s.Inv root n ((k, m) :: ns) L) : ∃ s', s.token k m = some s' ∧ s'.Inv root n ns L := by
  obtain ⟨s1, h1, i1, st1⟩ := h.leave
  obtain ⟨i2, ht, st2⟩ := i1.eatTrivias
  have hf := i1.fits
  simp only [Fits] at hf
  refine ⟨s1.eatTrivias.doToken k m, ?_, ⟨by simp [Sink.doToken, st2, st1], i2.builder.token _ _, ?_, ?_, ?_⟩⟩
  · unfold Sink.token
    simp only [h1, Option.bind_eq_bind, Option.bind_some]
    rw [ht, if_pos hf.1]; rfl
  · simp only [Sink.doToken, ht]; exact hf.2
  · have hl := i2.leaves
    rw [ht] at hl
    rw [← hl]
    have hd : ∀ l : List Piece, (l.dropWhile (·.kind.isTrivia)).takeWhile (·.kind.isTrivia) = [] ∧
        (l.dropWhile (·.kind.isTrivia)).dropWhile (·.kind.isTrivia) = l.dropWhile (·.kind.isTrivia) := by
      intro l
      induction l with
      | nil => simp
      | cons x xs ih =>
        by_cases hx : x.kind.isTrivia = true
        · simpa [hx] using ih
        · simp [hx]
    simp [Sink.doToken, ht, Builder.token, leavesList_append, Green.leavesList, Green.leaves, glue,
      (hd s1.toks).1, (hd s1.toks).2]
  · intro p hp
    exact i2.comments p (List.mem_of_mem_drop hp)

theorem Sink.Inv.fin {s : Sink} {root : SyntaxKind} {n : Nat} {ns : List (SyntaxKind × Nat)} {L : List Piece} (h : s.Inv root (n + 1) ns L) :
    ∃ s', s.finishNode = some s' ∧ s'.Inv root n ns L := by
  unfold Sink.finishNode Sink.leave
  cases hst : s.state with
  | PendingStart => exact absurd hst h.started
  | Normal =>
    refine ⟨{ s with state := .PendingFinish }, rfl, ⟨by simp, ?_, h.fits, h.leaves, h.comments⟩⟩
    have := h.builder
    rw [hst] at this
    simpa using this
  | PendingFinish =>
    have hb := h.builder
    rw [hst] at hb
    simp only [if_true] at hb
    obtain ⟨b', h1, h2, h3⟩ := hb.finishNode
    refine ⟨{ s with state := .PendingFinish, builder := b' }, by simp [h1], ⟨by simp, by simpa using h2, h.fits, ?_, h.comments⟩⟩
    simp only [h3, h.leaves]

theorem Sink.Inv.run {s : Sink} {root : SyntaxKind} {n m : Nat} {steps : List Step} {ns : List (SyntaxKind × Nat)} {L : List Piece}
    (h : s.Inv root n (stepTokens steps ++ ns) L) (hd : depth n steps = some m) :
    ∃ s', s.run steps = some s' ∧ s'.Inv root m ns L := by
  induction steps generalizing s n with
  | nil => simp [depth] at hd; subst hd; exact ⟨s, rfl, h⟩
  | cons x xs ih =>
    cases x with
    | start k =>
      obtain ⟨s1, h1, i1⟩ := h.start k
      obtain ⟨s2, h2, i2⟩ := ih i1 hd
      exact ⟨s2, by simp [Sink.run, Sink.step, h1, h2], i2⟩
    | finish =>
      cases n with
      | zero => simp [depth] at hd
      | succ n =>
        obtain ⟨s1, h1, i1⟩ := h.fin
        obtain ⟨s2, h2, i2⟩ := ih i1 hd
        exact ⟨s2, by simp [Sink.run, Sink.step, h1, h2], i2⟩
    | token k j =>
      obtain ⟨s1, h1, i1⟩ := Sink.Inv.tok (k := k) (m := j) (ns := stepTokens xs ++ ns) h
      obtain ⟨s2, h2, i2⟩ := ih i1 hd
      exact ⟨s2, by simp [Sink.run, Sink.step, h1, h2], i2⟩
    | error =>
      have h' : s.error.Inv root n (stepTokens xs ++ ns) L := ⟨h.started, h.builder, h.fits, h.leaves, h.comments⟩
      obtain ⟨s2, h2, i2⟩ := ih h' hd
      exact ⟨s2, by simp [Sink.run, Sink.step, h2], i2⟩

/-- The tree for the calls of one root node around balanced calls. -/
theorem sink_ok {toks : List Piece} {root : SyntaxKind} {inner : List Step} (hb : Bal inner)
    (hf : Fits toks (stepTokens inner)) (hc : ∀ p ∈ toks, p.kind = .COMMENT → (Comments.fromText p.text).isSome) :
    ∃ s cs errs, (Sink.new toks).run (.start root :: inner ++ [.finish]) = some s ∧
      s.finish = some (.node root cs, errs) ∧ Green.leavesList cs = glue toks (stepTokens inner) := by
  let s0 : Sink := { Sink.new toks with state := .Normal, builder := ⟨[(root, 0)], []⟩ }
  have i0 : s0.Inv root 0 (stepTokens inner ++ []) (glue toks (stepTokens inner)) := by
    refine ⟨by simp [s0], ⟨⟨[], rfl, rfl⟩, by simp [s0], by simp [s0]⟩, by simpa [s0, Sink.new] using hf, ?_, hc⟩
    simp [s0, Green.leavesList, Sink.new]
  obtain ⟨s1, h1, i1⟩ := i0.run (hb 0)
  have hfin : ∃ s2, s1.finishNode = some s2 ∧ s2.state = .PendingFinish ∧ s2.builder.Inv root 0 ∧
      s2.toks = s1.toks ∧ Green.leavesList s2.builder.children = Green.leavesList s1.builder.children := by
    unfold Sink.finishNode Sink.leave
    cases hst : s1.state with
    | PendingStart => exact absurd hst i1.started
    | Normal =>
      have := i1.builder
      rw [hst] at this
      exact ⟨{ s1 with state := .PendingFinish }, rfl, rfl, by simpa using this, rfl, rfl⟩
    | PendingFinish =>
      have hbb := i1.builder
      rw [hst] at hbb
      simp only [if_true] at hbb
      obtain ⟨b', g1, g2, g3⟩ := hbb.finishNode
      exact ⟨{ s1 with state := .PendingFinish, builder := b' }, by simp [g1], rfl, g2, rfl, g3⟩
  obtain ⟨s2, h2, st2, b2, t2, l2⟩ := hfin
  have hrun : (Sink.new toks).run (.start root :: inner ++ [.finish]) = some s2 := by
    have happ : ∀ (xs : List Step) (s : Sink) ys, s.run (xs ++ ys) = (s.run xs).bind fun s => s.run ys := by
      intro xs
      induction xs with
      | nil => intro s ys; simp [Sink.run]
      | cons x xs ih =>
        intro s ys
        simp only [List.cons_append, Sink.run]
        cases s.step x with
        | none => simp
        | some s' => simp [ih]
    have hs0 : (Sink.new toks).step (.start root) = some s0 := by
      simp [Sink.step, Sink.startNode, Sink.new, s0, Builder.startNode]
    have e1 : (Sink.new toks).run (.start root :: inner ++ [.finish]) =
        ((Sink.new toks).step (.start root)).bind fun s => s.run (inner ++ [.finish]) := rfl
    rw [e1, hs0, Option.bind_some, happ, h1, Option.bind_some]
    simp [Sink.run, Sink.step, h2]
  -- the end
  have i3 : ({ s2 with state := .Normal } : Sink).Inv root 0 [] (glue toks (stepTokens inner)) := by
    refine ⟨by simp, by simpa using b2, ?_, ?_, ?_⟩
    · simp only [t2]; exact i1.fits
    · simp only [t2, l2]; exact i1.leaves
    · simp only [t2]; exact i1.comments
  obtain ⟨i4, t4, st4⟩ := i3.eatTrivias
  have b4 := i4.builder
  rw [st4] at b4
  simp only [reduceCtorEq, if_false, Nat.add_zero] at b4
  obtain ⟨b5, cs, g1, g2, g3⟩ := b4.finishRoot
  have hnil : ({ s2 with state := .Normal } : Sink).eatTrivias.toks = [] := by
    rw [t4]
    have hall := i3.fits
    simp only [Fits] at hall
    exact List.dropWhile_eq_nil_iff.mpr hall
  refine ⟨s2, cs, ({ s2 with state := .Normal } : Sink).eatTrivias.errors, hrun, ?_, ?_⟩
  · unfold Sink.finish
    rw [st2]
    simp only [g1, g2, Option.bind_eq_bind, Option.bind_some, Option.pure_def]
  · rw [g3]
    have := i4.leaves
    rw [hnil] at this
    simpa [glue] using this

end Verif.Parser
