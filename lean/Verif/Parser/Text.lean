import Verif.Parser.Proofs.Run
import Verif.Lexer.Kinds
import Verif.Comments.Props

/-! From the text to the tree: the tokens the lexer gives meet what the parser needs, and the events of the parser fit
the tokens. -/

namespace Verif.Parser
open Verif.Syntax (SyntaxKind)
open Verif.Lexer (blen RawToken tokenize tokenizeLoop findToken Graphemes Describes)

/-- Further contract of the segmentation crate (UAX 29, GB999): between two ASCII characters, the first of which is not a
carriage return, there is a boundary. -/
def AsciiBreaks (g : List Char → Nat) : Prop :=
  ∀ c d cs, c.utf8Size = 1 → d.utf8Size = 1 → c ≠ '\r' → (c :: d :: cs).take (g (c :: d :: cs)) = [c]

/-! ### The pieces -/

/-- What is known of a piece of a lexed text. -/
structure Fine (p : Piece) : Prop where
  ne : p.text ≠ []
  described : ∃ rest, Describes p.kind p.text rest
  for_word : p.text = ['f', 'o', 'r'] → p.kind ≠ .BAD_CHARACTER

theorem nameToken_not_bad (a : List Char) (h : Lexer.syntaxKind (Lexer.nameToken a) = some .BAD_CHARACTER) : False := by
  rcases Lexer.nameToken_cases a _ h with h | h
  · have hno : ∀ x ∈ Lexer.keywords, x.1 ≠ .BAD_CHARACTER := by decide +kernel
    exact hno _ h.1 rfl
  · exact absurd h.1 (by decide)

theorem for_not_bad {g : List Char → Nat} (hb : AsciiBreaks g) {rest : List Char} {t : Lexer.Tok} {n : Nat}
    (h : findToken g ('f' :: 'o' :: 'r' :: rest) = some (t, n)) : Lexer.syntaxKind t ≠ some .BAD_CHARACTER := by
  intro hk
  have hc := hb 'f' 'o' ('r' :: rest) (by decide) (by decide) (by decide)
  unfold findToken at h
  simp only [hc] at h
  rw [if_neg (by simp), if_neg (by simp), if_neg (by simp), if_neg (by simp), if_neg (by decide), if_pos (by decide),
    if_neg (by simp [Lexer.startsWith]), if_neg (by simp [Lexer.startsWith])] at h
  simp only [Option.map_eq_some_iff] at h
  obtain ⟨a, -, h2⟩ := h
  cases h2
  exact nameToken_not_bad _ hk

theorem loop_pieces {g : List Char → Nat} (hg : Graphemes g) (hb : AsciiBreaks g) (fuel : Nat) (text : List Char)
    (toks : List RawToken) (h : tokenizeLoop g fuel text = some (some toks)) :
    ∃ ps, pieces text toks = some ps ∧ (ps.map Piece.text).flatten = text ∧ ∀ p ∈ ps, Fine p := by
  induction fuel generalizing text toks with
  | zero => simp [tokenizeLoop] at h
  | succ fuel ih =>
    by_cases hne : text = []
    · subst hne
      rw [Lexer.loop_nil] at h
      cases h
      exact ⟨[], rfl, rfl, by simp⟩
    · obtain ⟨tok, len, kind, h1, h2, h3, h4⟩ := Lexer.step_spec hg hne
      rw [Lexer.loop_step h1 h2 h3] at h
      rcases h4 with ⟨a, b, e1, e2, e3, e4⟩ | ⟨e4, -⟩
      · rw [e4] at h
        simp only [Option.map_eq_some_iff] at h
        obtain ⟨r, hr, rs, hrs, rfl⟩ := h
        have hd := Lexer.findToken_sound hne h1 a b kind e1 e2 h3
        obtain ⟨ps, p1, p2, p3⟩ := ih b rs (by rw [hr, hrs])
        refine ⟨⟨kind, a⟩ :: ps, by simp [pieces, e4, p1], by simp [p2, e1], ?_⟩
        intro p hp
        rcases List.mem_cons.1 hp with rfl | hp
        · refine ⟨e3, ⟨b, hd⟩, ?_⟩
          intro hf hk
          simp only at hf hk
          subst hf hk
          rw [e1] at h1
          exact for_not_bad hb h1 h3
        · exact p3 p hp
      · rw [e4] at h; cases h

theorem tokenize_pieces {g : List Char → Nat} (hg : Graphemes g) (hb : AsciiBreaks g) (fuel : Nat) (text : List Char)
    (toks : List RawToken) (h : tokenize g fuel text = some (some toks)) :
    ∃ ps, pieces text toks = some ps ∧ (ps.map Piece.text).flatten = text ∧ ∀ p ∈ ps, Fine p := by
  unfold tokenize at h
  split at h
  · rename_i h0
    cases h
    exact ⟨[], rfl, by simp [h0], by simp⟩
  · exact loop_pieces hg hb fuel text toks h

/-! ### The tokens of the parser -/

theorem mem_withOffsets {o : Nat} {ps : List Piece} {x : Piece × Nat} (h : x ∈ withOffsets o ps) :
    x.1 ∈ ps ∧ x.1.kind.isTrivia = false ∧ o ≤ x.2 := by
  induction ps generalizing o with
  | nil => simp [withOffsets] at h
  | cons p ps ih =>
    unfold withOffsets at h
    split at h
    · obtain ⟨h1, h2, h3⟩ := ih h
      exact ⟨List.mem_cons_of_mem _ h1, h2, by omega⟩
    · rename_i ht
      rcases List.mem_cons.1 h with rfl | h
      · exact ⟨List.mem_cons_self, by simpa using ht, Nat.le_refl _⟩
      · obtain ⟨h1, h2, h3⟩ := ih h
        exact ⟨List.mem_cons_of_mem _ h1, h2, by omega⟩

theorem sourceFrom_get {prev : Option Nat} {xs : List (Piece × Nat)} {i : Nat} :
    (sourceFrom prev xs)[i]?.map (fun t => (t.kind, t.text)) = xs[i]?.map fun x => (x.1.kind, x.1.text) := by
  induction xs generalizing prev i with
  | nil => simp [sourceFrom]
  | cons x xs ih =>
    obtain ⟨p, o⟩ := x
    cases i with
    | zero => simp [sourceFrom]
    | succ i => simp [sourceFrom, ih]

theorem sourceFrom_length {prev : Option Nat} {xs : List (Piece × Nat)} : (sourceFrom prev xs).length = xs.length := by
  induction xs generalizing prev with
  | nil => rfl
  | cons x xs ih => obtain ⟨p, o⟩ := x; simp [sourceFrom, ih]

theorem sourceFrom_joint {prev : Option Nat} {xs : List (Piece × Nat)} {i : Nat} {t : PTok}
    (h : (sourceFrom prev xs)[i]? = some t) (hj : t.joint = true) : i + 1 < xs.length := by
  induction xs generalizing prev i with
  | nil => simp [sourceFrom] at h
  | cons x xs ih =>
    obtain ⟨p, o⟩ := x
    cases i with
    | zero =>
      simp only [sourceFrom, List.getElem?_cons_zero, Option.some.injEq] at h
      subst h
      cases xs with
      | nil => simp at hj
      | cons y ys => simp
    | succ i =>
      simp only [sourceFrom, List.getElem?_cons_succ] at h
      have := ih h
      simp only [List.length_cons]; omega

/-- The piece of a token. -/
theorem source_piece {ps : List Piece} {i : Nat} {t : PTok} (h : (source ps)[i]? = some t) :
    ∃ p ∈ ps, p.kind = t.kind ∧ p.text = t.text ∧ p.kind.isTrivia = false := by
  have h1 := sourceFrom_get (prev := none) (xs := withOffsets 0 ps) (i := i)
  rw [show sourceFrom none (withOffsets 0 ps) = source ps from rfl, h] at h1
  simp only [Option.map_some] at h1
  cases hx : (withOffsets 0 ps)[i]? with
  | none => rw [hx] at h1; cases h1
  | some x =>
    rw [hx] at h1
    simp only [Option.map_some, Option.some.injEq, Prod.mk.injEq] at h1
    obtain ⟨m1, m2, -⟩ := mem_withOffsets (List.mem_of_getElem? hx)
    exact ⟨x.1, m1, h1.1.symm, h1.2.symm, m2⟩

/-- The tokens of a lexed text are valid. -/
theorem valid_source {ps : List Piece} (hf : ∀ p ∈ ps, Fine p) (debug : Bool) : Input.Valid ⟨source ps, debug⟩ where
  eof p hp := by
    intro hk
    unfold Input.kindAt at hk
    have hlt : p < (source ps).length := hp
    rw [show (source ps)[p]? = some (source ps)[p] from List.getElem?_eq_getElem hlt] at hk
    obtain ⟨q, hq, h1, -, -⟩ := source_piece (List.getElem?_eq_getElem hlt)
    obtain ⟨rest, hd⟩ := (hf q hq).described
    have := hd.known
    rw [h1] at this
    simp only at hk
    rw [hk] at this
    revert this
    decide +kernel
  small p := by
    unfold Input.kindAt
    simp only
    split
    · rename_i t ht
      obtain ⟨q, hq, h1, -, h3⟩ := source_piece ht
      obtain ⟨rest, hd⟩ := (hf q hq).described
      have hk := hd.known
      rw [h1] at hk h3
      clear h1
      generalize t.kind = k at hk h3
      have h4 : ∀ x ∈ Lexer.punctuation, x.1.toNat < 128 := by decide +kernel
      have h5 : ∀ x ∈ Lexer.keywords, x.1.toNat < 128 := by decide +kernel
      rcases hk with hk | hk | hk
      · obtain ⟨x, hm, rfl⟩ := List.mem_map.1 hk
        exact h4 x hm
      · obtain ⟨x, hm, rfl⟩ := List.mem_map.1 hk
        exact h5 x hm
      · simp only [List.mem_cons, List.not_mem_nil, or_false] at hk
        rcases hk with rfl | rfl | rfl | rfl | rfl | rfl | rfl | rfl <;> first | decide | (revert h3; decide)
    · decide
  joint p hp := by
    unfold Input.jointAt at hp
    simp only at hp
    split at hp
    · rename_i t ht
      have := sourceFrom_joint ht hp
      show p + 1 < (source ps).length
      rw [source, sourceFrom_length]; exact this
    · cases hp
  for_ident p hp := by
    unfold Input.isKeyword at hp
    unfold Input.kindAt
    simp only at hp ⊢
    split at hp
    · rename_i t ht
      obtain ⟨q, hq, h1, h2, h3⟩ := source_piece ht
      have hfor : q.text = ['f', 'o', 'r'] := by rw [h2]; simpa using hp
      obtain ⟨rest, hd⟩ := (hf q hq).described
      rw [← h1]
      rcases hd.known with hk | hk | hk
      · obtain ⟨⟨k, s⟩, hm, hk⟩ := List.mem_map.1 hk
        simp only at hk; subst hk
        have := (hd.punct s hm).1
        rw [hfor] at this; subst this
        have hno : ∀ x ∈ Lexer.punctuation, x.2 ≠ ['f', 'o', 'r'] := by decide +kernel
        exact absurd rfl (hno _ hm)
      · obtain ⟨⟨k, s⟩, hm, hk⟩ := List.mem_map.1 hk
        simp only at hk; subst hk
        have := (hd.keyword s hm).1
        rw [hfor] at this; subst this
        have hno : ∀ x ∈ Lexer.keywords, x.2 ≠ ['f', 'o', 'r'] := by decide +kernel
        exact absurd rfl (hno _ hm)
      · simp only [List.mem_cons, List.not_mem_nil, or_false] at hk
        rcases hk with hk | hk | hk | hk | hk | hk | hk | hk
        · exact hk
        · have := (hd.space hk).1 'f' (by rw [hfor]; simp)
          exact absurd this (by decide)
        · obtain ⟨c, cs, e, hdig⟩ := hd.number hk
          rw [hfor] at e; cases e
          exact absurd hdig (by decide)
        · rw [hk] at h3; exact absurd h3 (by decide)
        · obtain ⟨cs, e, -⟩ := hd.label hk
          rw [hfor] at e; cases e
        · have := (hd.hex hk).1
          rw [hfor] at this; exact absurd this (by decide)
        · have := (hd.bytes hk).1
          rw [hfor] at this; exact absurd this (by decide)
        · exact absurd hk ((hf q hq).for_word hfor)
    · cases hp

/-! ### The leaves of the tree -/

/-- The operators made of several tokens of the lexer. -/
def operators : List (SyntaxKind × List Char) := [
  (.AMP_AMP, ['&', '&']), (.PIPE_PIPE, ['|', '|']), (.SHL, ['<', '<']), (.SHR, ['>', '>']), (.LT_EQ, ['<', '=']),
  (.GT_EQ, ['>', '=']), (.SHL_EQ, ['<', '<', '=']), (.SHR_EQ, ['>', '>', '=']), (.LESS_IMPLIES, ['<', '=', '=', '>'])]

/-- How adjacent tokens of the lexer, none of them white space or a comment, are a leaf of kind `k`. -/
inductive Group : SyntaxKind → List Piece → Prop
  | same (t) : Group t.kind [t]
  | operator (k w run) : (k, w) ∈ operators → (run.map Piece.text).flatten = w → Group k run
  | word (k w t) : (k, w) ∈ contextual → t.text = w.toList → Group k [t]
  | name (t) : t.kind = .UNDERSCORE ∨ t.kind = .FRIEND_KW → Group .IDENT [t]
  | wildcard (run) : (∀ t ∈ run, t.kind = .IDENT ∨ t.kind = .STAR) → Group .WILDCARD_IDENT run

/-- The leaves of a tree for the tokens of the lexer: white space and comments are kept as they are, and the others are
grouped. -/
inductive Regroups : List Piece → List Piece → Prop
  | nil : Regroups [] []
  | trivia (t ps ls) : t.kind.isTrivia = true → Regroups ps ls → Regroups (t :: ps) (t :: ls)
  | token (k run ps ls) : run ≠ [] → (∀ t ∈ run, t.kind.isTrivia = false) → Group k run → Regroups ps ls →
      Regroups (run ++ ps) (⟨k, (run.map Piece.text).flatten⟩ :: ls)

theorem Regroups.text {ps ls : List Piece} (h : Regroups ps ls) :
    (ls.map Piece.text).flatten = (ps.map Piece.text).flatten := by
  induction h with
  | nil => rfl
  | trivia t ps ls _ _ ih => simp [ih]
  | token k run ps ls _ _ _ _ ih => simp [ih]

theorem Regroups.trivias {ps qs ls : List Piece} (h : ∀ t ∈ ps, t.kind.isTrivia = true) (hr : Regroups qs ls) :
    Regroups (ps ++ qs) (ps ++ ls) := by
  induction ps with
  | nil => exact hr
  | cons t ps ih =>
    exact .trivia t _ _ (h t List.mem_cons_self) (ih fun t ht => h t (List.mem_cons_of_mem _ ht))

theorem withOffsets_dropWhile (o : Nat) (ps : List Piece) :
    ∃ o', withOffsets o ps = withOffsets o' (ps.dropWhile (·.kind.isTrivia)) := by
  induction ps generalizing o with
  | nil => exact ⟨o, rfl⟩
  | cons p ps ih =>
    by_cases ht : p.kind.isTrivia = true
    · obtain ⟨o', h⟩ := ih (o + blen p.text)
      exact ⟨o', by simp only [withOffsets, ht, if_true, List.dropWhile_cons_of_pos (p := fun q : Piece => q.kind.isTrivia) ht, h]⟩
    · exact ⟨o, by rw [List.dropWhile_cons_of_neg (p := fun q : Piece => q.kind.isTrivia) ht]⟩

theorem sourceFrom_cons {p : Piece} (hp : p.kind.isTrivia = false) (ps : List Piece) (o : Nat) (prev : Option Nat) :
    ∃ t, sourceFrom prev (withOffsets o (p :: ps)) =
        t :: sourceFrom (some (o + blen p.text)) (withOffsets (o + blen p.text) ps) ∧
      (t.joint = true → ∀ q qs, ps = q :: qs → q.text ≠ [] → q.kind.isTrivia = false) := by
  have e : withOffsets o (p :: ps) = (p, o) :: withOffsets (o + blen p.text) ps := by simp [withOffsets, hp]
  rw [e]
  refine ⟨_, rfl, ?_⟩
  rintro hj q qs rfl hq
  by_contra ht
  rw [Bool.not_eq_false] at ht
  simp only [withOffsets, ht, if_true] at hj
  split at hj
  · cases hj
  · rename_i x o' rest hx
    have := (mem_withOffsets (x := (x, o')) (by rw [hx]; simp)).2.2
    have hpos := Lexer.blen_pos hq
    simp only [beq_iff_eq] at hj
    simp only at this
    omega

/-- The first `n` tokens, joined, are the first `n` pieces. -/
theorem take_joint {n : Nat} : ∀ {ps : List Piece} {o : Nat} {prev : Option Nat}, 1 ≤ n → (∀ p ∈ ps, p.text ≠ []) →
    (∀ p, ps.head? = some p → p.kind.isTrivia = false) → n ≤ (sourceFrom prev (withOffsets o ps)).length →
    (∀ j, j + 1 < n → ∀ t, (sourceFrom prev (withOffsets o ps))[j]? = some t → t.joint = true) →
    n ≤ ps.length ∧ (∀ p ∈ ps.take n, p.kind.isTrivia = false) ∧
      ∃ prev' o', (sourceFrom prev (withOffsets o ps)).drop n = sourceFrom prev' (withOffsets o' (ps.drop n)) := by
  induction n with
  | zero => intro _ _ _ h; omega
  | succ n ih =>
    intro ps o prev _ hne hhead hlen hj
    cases ps with
    | nil => simp [withOffsets, sourceFrom] at hlen
    | cons p ps =>
      have hp : p.kind.isTrivia = false := hhead p rfl
      obtain ⟨t, e, hjoint⟩ := sourceFrom_cons hp ps o prev
      rw [e] at hlen hj ⊢
      rcases Nat.eq_zero_or_pos n with rfl | hn
      · exact ⟨by simp, by simp [hp], _, _, rfl⟩
      · have hj0 := hj 0 (by omega) _ rfl
        have hhead' : ∀ q, ps.head? = some q → q.kind.isTrivia = false := by
          intro q hq
          cases ps with
          | nil => simp at hq
          | cons q' qs =>
            simp only [List.head?_cons, Option.some.injEq] at hq
            subst hq
            exact hjoint hj0 _ _ rfl (hne _ (by simp))
        obtain ⟨h1, h2, h3⟩ := ih (ps := ps) (o := o + blen p.text) (prev := some (o + blen p.text)) hn
          (fun q hq => hne q (List.mem_cons_of_mem _ hq)) hhead' (by simpa using hlen)
          (fun j h1 t ht => hj (j + 1) (by omega) t (by simpa using ht))
        refine ⟨by simpa using h1, ?_, by simpa using h3⟩
        intro q hq
        rw [List.take_succ_cons] at hq
        rcases List.mem_cons.1 hq with rfl | hq
        · exact hp
        · exact h2 q hq

theorem withOffsets_get {n : Nat} : ∀ {ps : List Piece} {o j : Nat}, (∀ p ∈ ps.take n, p.kind.isTrivia = false) → j < n →
    (withOffsets o ps)[j]?.map (·.1) = ps[j]? := by
  induction n with
  | zero => intro _ _ _ _ h; omega
  | succ n ih =>
    intro ps o j hall hj
    cases ps with
    | nil => simp [withOffsets]
    | cons p ps =>
      have hp := hall p (by simp)
      have e : withOffsets o (p :: ps) = (p, o) :: withOffsets (o + blen p.text) ps := by simp [withOffsets, hp]
      rw [e]
      cases j with
      | zero => simp
      | succ j =>
        simp only [List.getElem?_cons_succ]
        exact ih (fun q hq => hall q (by simp [hq])) (by omega)

/-- The spelling of a token. -/
theorem Fine.punct {p : Piece} (h : Fine p) {s : List Char} (hs : (p.kind, s) ∈ Lexer.punctuation) : p.text = s := by
  obtain ⟨rest, hd⟩ := h.described
  exact (hd.punct s hs).1

theorem mem_contextual {k : SyntaxKind} {w : String} (h : spelling k = some w) : (k, w) ∈ contextual := by
  unfold spelling at h
  generalize contextual = xs at h ⊢
  induction xs with
  | nil => cases h
  | cons x xs ih =>
    obtain ⟨k', w'⟩ := x
    simp only [List.lookup] at h
    split at h
    · rename_i hk
      cases h
      rw [beq_iff_eq] at hk
      subst hk; simp
    · exact List.mem_cons_of_mem _ (ih h)

/-- A kind and the kinds of its tokens. -/
theorem parts_cases (k : SyntaxKind) : parts k = [k] ∨ ∃ w ss, (k, w) ∈ operators ∧ ss.flatten = w ∧ ss.length = (parts k).length ∧
    ∀ x ∈ (parts k).zip ss, x ∈ Lexer.punctuation := by
  unfold parts
  split
  · exact .inr ⟨_, [['&'], ['&']], by decide, rfl, rfl, by decide⟩
  · exact .inr ⟨_, [['<'], ['<']], by decide, rfl, rfl, by decide⟩
  · exact .inr ⟨_, [['<'], ['=']], by decide, rfl, rfl, by decide⟩
  · exact .inr ⟨_, [['>'], ['=']], by decide, rfl, rfl, by decide⟩
  · exact .inr ⟨_, [['>'], ['>']], by decide, rfl, rfl, by decide⟩
  · exact .inr ⟨_, [['|'], ['|']], by decide, rfl, rfl, by decide⟩
  · exact .inr ⟨_, [['<'], ['<'], ['=']], by decide, rfl, rfl, by decide⟩
  · exact .inr ⟨_, [['>'], ['>'], ['=']], by decide, rfl, rfl, by decide⟩
  · exact .inr ⟨_, [['<'], ['=', '=', '>']], by decide, rfl, rfl, by decide⟩
  · exact .inl rfl

theorem atParts_kinds {I : Input} {ks : List SyntaxKind} {p : Nat} (h : I.atParts p ks = true) :
    ∀ j, j < ks.length → ks[j]? = some (I.kindAt (p + j)) := by
  induction ks generalizing p with
  | nil => intro j hj; simp at hj
  | cons k ks ih =>
    intro j hj
    cases ks with
    | nil =>
      have : j = 0 := by simpa using hj
      subst this
      simp only [Input.atParts, beq_iff_eq] at h
      simp [h]
    | cons k' ks =>
      simp only [Input.atParts, Bool.and_eq_true, beq_iff_eq] at h
      cases j with
      | zero => simp [h.1.1]
      | succ j =>
        have := ih h.2 j (by simpa using hj)
        rw [List.getElem?_cons_succ, this, Nat.add_right_comm, Nat.add_assoc]

theorem texts_of {run : List Piece} (hf : ∀ p ∈ run, Fine p) : ∀ {ks : List SyntaxKind} {ss : List (List Char)},
    run.map Piece.kind = ks → ss.length = ks.length → (∀ x ∈ ks.zip ss, x ∈ Lexer.punctuation) → run.map Piece.text = ss := by
  induction run with
  | nil =>
    rintro ks ss rfl hl _
    simp only [List.map_nil, List.length_nil, List.length_eq_zero_iff] at hl
    rw [hl]; rfl
  | cons p run ih =>
    rintro ks ss rfl hl hx
    cases ss with
    | nil => simp at hl
    | cons s ss =>
      simp only [List.map_cons, List.zip_cons_cons, List.forall_mem_cons] at hx
      rw [List.map_cons, (hf p List.mem_cons_self).punct hx.1,
        ih (fun q hq => hf q (List.mem_cons_of_mem _ hq)) rfl (by simpa using hl) hx.2]

/-- A leaf of the parser is a group. -/
theorem Leaf.group {I : Input} {p n : Nat} {k : SyntaxKind} (h : Leaf I p k n) {run : List Piece} (hr : run.length = n)
    (hf : ∀ t ∈ run, Fine t)
    (hk : ∀ j t, run[j]? = some t → I.kindAt (p + j) = t.kind ∧ I.textAt (p + j) = t.text) : Group k run := by
  have one : n = 1 → ∃ t, run = [t] ∧ I.kindAt p = t.kind ∧ I.textAt p = t.text := by
    rintro rfl
    obtain ⟨t, rfl⟩ := List.length_eq_one_iff.1 hr
    exact ⟨t, rfl, hk 0 t rfl⟩
  cases h with
  | same _ h0 =>
    obtain ⟨t, rfl, h1, -⟩ := one rfl
    rw [← h0, h1]
    exact .same t
  | operator _ h0 =>
    rcases parts_cases k with hp | ⟨w, ss, h1, h2, h3, h4⟩
    · obtain ⟨t, rfl, h5, -⟩ := one (by rw [hp]; rfl)
      rw [Input.atKind, hp] at h0
      simp only [Input.atParts, beq_iff_eq] at h0
      rw [← h0, h5]
      exact .same t
    · refine .operator k w run h1 ?_
      have hks : run.map Piece.kind = parts k := by
        apply List.ext_getElem?
        intro j
        by_cases hj : j < run.length
        · rw [atParts_kinds h0 j (by omega), List.getElem?_map, List.getElem?_eq_getElem hj, Option.map_some,
            (hk j _ (List.getElem?_eq_getElem hj)).1]
        · rw [List.getElem?_eq_none (by simpa using hj), List.getElem?_eq_none (by omega)]
      rw [texts_of hf hks h3 h4, h2]
  | word _ w h0 h1 =>
    obtain ⟨t, rfl, -, h2⟩ := one rfl
    refine .word k w t (mem_contextual h0) ?_
    unfold Input.isKeyword at h1
    unfold Input.textAt at h2
    split at h1
    · rename_i x hx
      rw [hx] at h2
      rw [← h2]
      simpa using h1
    · cases h1
  | name h0 =>
    obtain ⟨t, rfl, h1, -⟩ := one rfl
    exact .name t (by rwa [← h1])
  | wildcard _ h0 =>
    refine .wildcard run fun t ht => ?_
    obtain ⟨j, hj, rfl⟩ := List.getElem_of_mem ht
    rw [← (hk j _ (List.getElem?_eq_getElem hj)).1]
    exact h0 _ (by omega) (by omega)

/-- Every token of the events is a group of pieces. -/
def Grouped : List Piece → List (SyntaxKind × Nat) → Prop
  | _, [] => True
  | ps, (k, n) :: ns =>
    Group k ((ps.dropWhile (·.kind.isTrivia)).take n) ∧ Grouped ((ps.dropWhile (·.kind.isTrivia)).drop n) ns

/-- The events fit the pieces. -/
theorem regroup {I : Input} {ns : List (SyntaxKind × Nat)} : ∀ {ps : List Piece} {p o : Nat} {prev : Option Nat}, (∀ t ∈ ps, Fine t) →
    I.toks.drop p = sourceFrom prev (withOffsets o ps) → Glued I p ns I.size →
    Fits ps ns ∧ Regroups ps (glue ps ns) ∧ Grouped ps ns := by
  induction ns with
  | nil =>
    intro ps p o prev hf hI hg
    simp only [Glued] at hg
    subst hg
    rw [List.drop_length] at hI
    have htr : ∀ t ∈ ps, t.kind.isTrivia = true := by
      have h0 : withOffsets o ps = [] := by
        have := congrArg List.length hI
        rw [sourceFrom_length] at this
        exact List.length_eq_zero_iff.1 this.symm
      clear hI hf
      induction ps generalizing o with
      | nil => simp
      | cons q qs ih =>
        unfold withOffsets at h0
        split at h0
        · rename_i ht
          exact List.forall_mem_cons.2 ⟨ht, ih h0⟩
        · cases h0
    exact ⟨htr, by simpa [glue] using Regroups.trivias htr .nil, trivial⟩
  | cons x ns ih =>
    intro ps p o prev hf hI hg
    obtain ⟨k, n⟩ := x
    obtain ⟨⟨hl, h1⟩, h2, h3, h4⟩ := hg
    obtain ⟨o', ho'⟩ := withOffsets_dropWhile o ps
    rw [ho'] at hI
    have hf' : ∀ t ∈ ps.dropWhile (·.kind.isTrivia), Fine t := fun t ht => hf t ((List.dropWhile_sublist _).mem ht)
    obtain ⟨t1, t2, prev', o'', t3⟩ := take_joint (n := n) (ps := ps.dropWhile (·.kind.isTrivia)) (o := o') (prev := prev) h1
      (fun t ht => (hf' t ht).ne)
      (fun q hq => by
        have := List.head?_dropWhile_not (fun t : Piece => t.kind.isTrivia) ps
        rw [hq] at this
        simpa using this)
      (by rw [← hI, List.length_drop]; unfold Input.size at h2; omega)
      (fun j hj t ht => by
        rw [← hI, List.getElem?_drop] at ht
        have := h3 (p + j) (by omega) (by omega)
        unfold Input.jointAt at this
        rw [ht] at this
        exact this)
    have hrec := ih (ps := (ps.dropWhile (·.kind.isTrivia)).drop n) (p := p + n) (o := o'') (prev := prev')
      (fun t ht => hf' t (List.mem_of_mem_drop ht)) (by rw [← List.drop_drop, hI, t3]) h4
    refine ⟨⟨t1, hrec.1⟩, ?_⟩
    simp only [glue, Grouped]
    have hsplit : ps = ps.takeWhile (·.kind.isTrivia) ++ ((ps.dropWhile (·.kind.isTrivia)).take n ++
        (ps.dropWhile (·.kind.isTrivia)).drop n) := by
      rw [List.take_append_drop, List.takeWhile_append_dropWhile]
    have hlen : ((ps.dropWhile (·.kind.isTrivia)).take n).length = n := by rw [List.length_take]; omega
    have hgroup : Group k ((ps.dropWhile (·.kind.isTrivia)).take n) := by
      refine hl.group hlen (fun t ht => hf' t (List.mem_of_mem_take ht)) ?_
      intro j t ht
      have hj : j < n := by
        have := (List.getElem?_eq_some_iff.1 ht).1
        omega
      rw [List.getElem?_take_of_lt hj] at ht
      have e1 := withOffsets_get (o := o') t2 hj
      have e2 := sourceFrom_get (prev := prev) (xs := withOffsets o' (ps.dropWhile (·.kind.isTrivia))) (i := j)
      rw [← hI, List.getElem?_drop] at e2
      rw [ht] at e1
      cases hx : (withOffsets o' (ps.dropWhile (·.kind.isTrivia)))[j]? with
      | none => rw [hx] at e1; cases e1
      | some x =>
        rw [hx] at e1 e2
        simp only [Option.map_some, Option.some.injEq] at e1 e2
        subst e1
        cases hy : I.toks[p + j]? with
        | none => rw [hy] at e2; cases e2
        | some y =>
          rw [hy] at e2
          simp only [Option.map_some, Option.some.injEq, Prod.mk.injEq] at e2
          unfold Input.kindAt Input.textAt
          rw [hy]
          exact e2
    have := Regroups.trivias (ps := ps.takeWhile (·.kind.isTrivia))
      (fun t ht => by simpa using List.mem_takeWhile_imp ht)
      (Regroups.token k _ _ _ (List.ne_nil_of_length_pos (by omega)) t2 hgroup hrec.2.1)
    rw [← hsplit] at this
    exact ⟨this, hgroup, hrec.2.2⟩

end Verif.Parser
