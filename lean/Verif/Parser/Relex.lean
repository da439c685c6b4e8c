import Verif.Lexer.Relex
import Verif.Parser.Relabel

/-! The text with other names: the lexer cuts it in the same places, and the parser gives the same tree. -/

namespace Verif.Parser
open Verif.Syntax (SyntaxKind)
open Verif.Lexer (blen blen_append RawToken tokenize tokenizeLoop findToken Graphemes Describes IsName NameEnds OneAhead Apart
  NameHeads isNameChar Ascii nameStart)

/-! ### The pieces the lexer gives -/

/-- The lexer cuts the text of the pieces into these pieces. -/
inductive Lexes (g : List Char → Nat) : List Piece → Prop
  | nil : Lexes g []
  | cons (p : Piece) (ps : List Piece) (t : Lexer.Tok) : p.text ≠ [] → findToken g (p.text ++ texts ps) = some (t, blen p.text) →
      Lexer.syntaxKind t = some p.kind → Lexes g ps → Lexes g (p :: ps)

theorem loop_lexes {g : List Char → Nat} (hg : Graphemes g) (fuel : Nat) (text : List Char) (toks : List RawToken) (ps : List Piece)
    (h : tokenizeLoop g fuel text = some (some toks)) (hp : pieces text toks = some ps) :
    Lexes g ps ∧ texts ps = text ∧ ps.length < fuel := by
  induction fuel generalizing text toks ps with
  | zero => simp [tokenizeLoop] at h
  | succ fuel ih =>
    by_cases hne : text = []
    · subst hne
      rw [Lexer.loop_nil] at h
      cases h
      simp only [pieces, Option.some.injEq] at hp
      subst hp
      exact ⟨.nil, rfl, by simp⟩
    · obtain ⟨tok, len, kind, h1, h2, h3, h4⟩ := Lexer.step_spec hg hne
      rw [Lexer.loop_step h1 h2 h3] at h
      rcases h4 with ⟨a, b, e1, e2, e3, e4⟩ | ⟨e4, -⟩
      · rw [e4] at h
        simp only [Option.map_eq_some_iff] at h
        obtain ⟨r, hr, rs, hrs, rfl⟩ := h
        simp only [pieces, e4, Option.bind_eq_bind, Option.bind_some, Option.bind_eq_some_iff, Option.pure_def, Option.some.injEq] at hp
        obtain ⟨qs, hq, rfl⟩ := hp
        obtain ⟨l1, l2, l3⟩ := ih b rs qs (by rw [hr, hrs]) hq
        refine ⟨.cons _ _ tok e3 ?_ h3 l1, by simp [l2, e1], by simp only [List.length_cons]; omega⟩
        simp only [l2]
        rw [← e1, h1, e2]
      · rw [e4] at h; cases h

theorem lexes_loop {g : List Char → Nat} (fuel : Nat) (ps : List Piece) (h : Lexes g ps) (hf : ps.length < fuel) :
    ∃ toks, tokenizeLoop g fuel (texts ps) = some (some toks) ∧ pieces (texts ps) toks = some ps := by
  induction fuel generalizing ps with
  | zero => omega
  | succ fuel ih =>
    cases h with
    | nil => exact ⟨[], Lexer.loop_nil g fuel, rfl⟩
    | cons p ps t h1 h2 h3 h4 =>
      obtain ⟨toks, t1, t2⟩ := ih ps h4 (by simpa using hf)
      refine ⟨⟨p.kind, blen p.text⟩ :: toks, ?_, ?_⟩
      · rw [texts_cons, Lexer.loop_step h2 (by rintro rfl; cases h3) h3, Lexer.split_complete]
        simp [t1]
      · simp [pieces, Lexer.split_complete, t2]

theorem tokenize_lexes {g : List Char → Nat} (hg : Graphemes g) {fuel : Nat} {text : List Char} {toks : List RawToken} {ps : List Piece}
    (hf : 0 < fuel) (h : tokenize g fuel text = some (some toks)) (hp : pieces text toks = some ps) :
    Lexes g ps ∧ texts ps = text ∧ ps.length < fuel := by
  unfold tokenize at h
  split at h
  · rename_i h0
    cases h
    simp only [pieces, Option.some.injEq] at hp
    subst hp
    exact ⟨.nil, h0.symm, hf⟩
  · exact loop_lexes hg fuel text toks ps h hp

theorem lexes_tokenize {g : List Char → Nat} {fuel : Nat} {ps : List Piece} (h : Lexes g ps) (hf : ps.length < fuel) :
    ∃ toks, tokenize g fuel (texts ps) = some (some toks) ∧ pieces (texts ps) toks = some ps := by
  unfold tokenize
  split
  · rename_i h0
    cases h with
    | nil => exact ⟨[], rfl, rfl⟩
    | cons p ps t h1 => simp [h1] at h0
  · exact lexes_loop fuel ps h hf

theorem Lexes.right {g : List Char → Nat} {a b : List Piece} (h : Lexes g (a ++ b)) : Lexes g b := by
  induction a with
  | nil => exact h
  | cons p a ih =>
    cases h with
    | cons _ _ _ _ _ _ h => exact ih h

theorem Lexes.describes {g : List Char → Nat} {p : Piece} {ps : List Piece} (h : Lexes g (p :: ps)) : Describes p.kind p.text (texts ps) := by
  cases h with
  | cons _ _ t h1 h2 h3 _ => exact Lexer.findToken_sound (by simp [h1]) h2 _ _ _ rfl rfl h3

/-! ### Names that stand by themselves -/

/-- What follows a name does not change its first cluster, nor make a string of it. -/
def Next (r : List Char) : Prop := ∀ d ds, r = d :: ds → d.utf8Size = 1 ∧ d ≠ '"'

/-- At the offset `q` a name can be replaced by another: the character before it is not of a name and not a quote, the one after
it is ASCII and not a quote. -/
def Spot (text : List Char) (q : Nat) : Prop :=
  ∃ a b, text = a ++ b ∧ blen a = q ∧ (a = [] ∨ Apart a) ∧ Next (b.dropWhile isNameChar)

theorem Spot.at {a b : List Char} (h : Spot (a ++ b) (blen a)) : (a = [] ∨ Apart a) ∧ Next (b.dropWhile isNameChar) := by
  obtain ⟨a', b', e, hl, h⟩ := h
  have := Lexer.prefix_unique e (List.prefix_append a b) hl
  subst this
  rw [List.append_cancel_left e]
  exact h

/-- A name that is no keyword, and none of the words of the grammar. -/
structure NewName (y : List Char) : Prop where
  name : IsName y
  keyword : ∀ k s, (k, s) ∈ Lexer.keywords → y ≠ s
  plain : Plain y

theorem nameStart_iff (c : Char) : nameStart c = true ↔ (Lexer.isLetter c = true ∨ c = '_') := by
  simp [nameStart]

theorem nameToken_ident {y : List Char} (h : ∀ k s, (k, s) ∈ Lexer.keywords → y ≠ s) : Lexer.nameToken y = .Identifier := by
  have hne : ∀ p ∈ Lexer.keywords, y ≠ p.2 := fun p hp => h p.1 p.2 hp
  simp only [Lexer.keywords, List.forall_mem_cons, List.not_mem_nil, false_implies, implies_true, and_true] at hne
  unfold Lexer.nameToken
  simp only [hne, if_false]

/-- A name that ends is a token. -/
theorem findToken_name {g : List Char → Nat} (hg : Graphemes g) (hb : AsciiBreaks g) {a r : List Char} (h : IsName a) (hr : NameEnds r)
    (hn : Next r) : findToken g (a ++ r) = some (Lexer.nameToken a, blen a) := by
  have hall := h.all
  obtain ⟨c, cs, rfl, h1, h2⟩ := h
  have hc : isNameChar c = true := hall c List.mem_cons_self
  have hcr : c ≠ '\r' := by rintro rfl; revert hc; decide
  have hns := Lexer.nameStart_cases ((nameStart_iff c).2 h1)
  have hcur : (c :: cs ++ r).take (g (c :: cs ++ r)) = [c] := by
    match cs, r, hn, hall with
    | d :: ds, r, hn, hall => exact hb c d (ds ++ r) (Lexer.isNameChar_ascii c hc) (Lexer.isNameChar_ascii d (hall d (by simp))) hcr
    | [], d :: ds, hn, hall => exact hb c d ds (Lexer.isNameChar_ascii c hc) (hn d ds rfl).1 hcr
    | [], [], hn, hall =>
      have := hg [c] (by simp)
      exact List.take_of_length_le this
  have hne : ∀ d, isNameChar d = false → [c] ≠ [d] := by
    rintro d hd e
    cases e
    rw [hc] at hd; cases hd
  have htw : (c :: cs ++ r).takeWhile isNameChar = c :: cs := by
    rw [List.takeWhile_append_of_pos hall]
    cases r with
    | nil => simp
    | cons d ds =>
      have : isNameChar d = false := by
        rw [Bool.eq_false_iff, ne_eq, Lexer.isNameChar_iff]
        exact hr d ds rfl
      simp [this]
  have hq : ∀ x, Lexer.startsWith (c :: cs ++ r) [x, '"'] = false := by
    intro x
    rw [Bool.eq_false_iff]
    intro hs
    obtain ⟨t, ht⟩ := (Lexer.startsWith_iff _ _).1 hs
    match cs, r, hn, hall with
    | d :: ds, r, hn, hall =>
      simp only [List.cons_append, List.nil_append, List.cons.injEq] at ht
      have := hall d (by simp)
      rw [← ht.2.1] at this
      revert this; decide
    | [], d :: ds, hn, hall =>
      simp only [List.cons_append, List.nil_append, List.cons.injEq] at ht
      exact (hn d ds rfl).2 ht.2.1.symm
    | [], [], hn, hall => simp at ht
  unfold findToken
  rw [if_neg (by simp)]
  simp only [hcur]
  rw [if_neg (fun h => hne '/' rfl h.1), if_neg (fun h => hne '/' rfl h.1), if_neg (by
    rintro (h | h | h)
    · exact hne ' ' rfl h
    · exact hne '\t' rfl h
    · exact hne '\n' rfl h), if_neg (by simp [Lexer.isNum, hns.2.2.2.2]), if_pos (by simpa [Lexer.isAlphabetic] using h1),
    if_neg (by rw [hq]; simp), if_neg (by rw [hq]; simp)]
  unfold Lexer.nameLen
  rw [Lexer.positionNot_eq _ Lexer.isNameChar_ascii, htw, Lexer.split_complete]
  rfl

section
variable {f : Nat → Option (List Char)}

/-- The first piece with a new text. -/
theorem first_touched (o : Nat) (ps : List Piece) : relabelPieces f o ps = ps ∨ ∃ cp q rest y, ps = cp ++ q :: rest ∧
    f (o + blen (texts cp)) = some y ∧
    relabelPieces f o ps = cp ++ ⟨q.kind, y⟩ :: relabelPieces f (o + blen (texts cp) + blen q.text) rest := by
  induction ps generalizing o with
  | nil => exact .inl rfl
  | cons p ps ih =>
    cases hf : f o with
    | some y => exact .inr ⟨[], p, ps, y, rfl, by simpa [blen] using hf, by simp [relabelPieces, hf, blen]⟩
    | none =>
      rcases ih (o + blen p.text) with h | ⟨cp, q, rest, y, h1, h2, h3⟩
      · exact .inl (by simp [relabelPieces, hf, h])
      · refine .inr ⟨p :: cp, q, rest, y, by rw [h1]; rfl, ?_, ?_⟩
        · rw [texts_cons, blen_append, ← Nat.add_assoc]; exact h2
        · rw [relabelPieces, hf, h3, texts_cons, blen_append, ← Nat.add_assoc]; rfl

theorem Touches.at {Q : Piece → Prop} {o : Nat} {a : List Piece} {q : Piece} {b : List Piece} (h : Touches Q f o (a ++ q :: b))
    (hs : (f (o + blen (texts a))).isSome = true) : Q q := by
  rw [Touches.append] at h
  exact h.2.1 hs

/-- The lexer cuts the text with the new names in the same places. -/
theorem relex {g : List Char → Nat} (hg : Graphemes g) (hb : AsciiBreaks g) (ho : OneAhead g) {ps : List Piece} (pre : List Char)
    (h : Lexes g ps) (ht : Touches (fun p => p.kind = .IDENT) f (blen pre) ps) (hn : ∀ q y, f q = some y → NewName y)
    (hs : ∀ q, (f q).isSome = true → Spot (pre ++ texts ps) q) (hc : ∀ p ∈ ps, p.kind = .COMMENT → ['/', '*'] <+: p.text → Ascii p.text) :
    Lexes g (relabelPieces f (blen pre) ps) := by
  induction ps generalizing pre with
  | nil => exact .nil
  | cons p ps ih =>
    have hdes := h.describes
    have hlex := h
    cases h with
    | cons _ _ t h1 h2 h3 h4 =>
    have hrest : Lexes g (relabelPieces f (blen (pre ++ p.text)) ps) := by
      refine ih (pre ++ p.text) h4 ?_ ?_ (fun q hq => hc q (List.mem_cons_of_mem _ hq))
      · rw [blen_append]; exact ht.2
      · intro q hq
        have := hs q hq
        rwa [texts_cons, ← List.append_assoc] at this
    rw [blen_append] at hrest
    rw [relabelPieces]
    cases hf : f (blen pre) with
    | some y =>
      have hk : p.kind = .IDENT := ht.1 (by simp [hf])
      obtain ⟨i1, i2, i3⟩ := hdes.ident hk
      have hy := hn _ _ hf
      obtain ⟨-, hnext⟩ := (hs _ (by simp [hf])).at
      have hdw : (texts (p :: ps)).dropWhile isNameChar = texts ps := by
        rw [texts_cons, List.dropWhile_append_of_pos i1.all]
        cases hd : texts ps with
        | nil => rfl
        | cons d ds =>
          have : isNameChar d = false := by
            rw [Bool.eq_false_iff, ne_eq, Lexer.isNameChar_iff]
            exact i3 d ds hd
          simp [this]
      rw [hdw] at hnext
      have hhead : ∀ d ds, texts (relabelPieces f (blen pre + blen p.text) ps) = d :: ds → ∃ ds', texts ps = d :: ds' := by
        intro d ds hd
        cases ps with
        | nil => simp [relabelPieces] at hd
        | cons q qs =>
          cases hq : f (blen pre + blen p.text) with
          | some y' =>
            exfalso
            have h5 := hs (blen (pre ++ p.text)) (by rw [blen_append, hq]; rfl)
            rw [texts_cons, ← List.append_assoc] at h5
            rcases h5.at.1 with h6 | h6
            · simp [h1] at h6
            · exact (h6.right h1).not_name i1.all
          | none =>
            rw [relabelPieces, hq, texts_cons] at hd
            simp only [Option.getD_none] at hd
            cases h4 with
            | cons _ _ _ g1 _ _ _ =>
              cases hqt : q.text with
              | nil => exact absurd hqt g1
              | cons e es =>
                rw [hqt] at hd
                simp only [List.cons_append, List.cons.injEq] at hd
                exact ⟨es ++ texts qs, by rw [texts_cons, hqt, ← hd.1]; rfl⟩
      have hf2 : findToken g (y ++ texts (relabelPieces f (blen pre + blen p.text) ps)) = some (Lexer.nameToken y, blen y) := by
        refine findToken_name hg hb hy.name ?_ ?_
        · intro d ds hd
          obtain ⟨ds', e⟩ := hhead d ds hd
          exact i3 d ds' e
        · intro d ds hd
          obtain ⟨ds', e⟩ := hhead d ds hd
          exact hnext d ds' e
      rw [nameToken_ident hy.keyword] at hf2
      refine .cons _ _ .Identifier ?_ hf2 (by rw [hk]; rfl) hrest
      obtain ⟨c, cs, e, -⟩ := hy.name
      simp [e]
    | none =>
      refine .cons _ _ t h1 ?_ h3 hrest
      simp only [Option.getD_none]
      rcases first_touched (f := f) (blen pre + blen p.text) ps with e | ⟨cp, q, rest, y, e1, e2, e3⟩
      · rw [e]; exact h2
      · rw [e3]
        have hqk : q.kind = .IDENT := by
          have h5 := ht.2
          rw [e1] at h5
          exact h5.at (by rw [e2]; rfl)
        have hqd : Describes q.kind q.text (texts rest) := by
          have h5 := h4
          rw [e1] at h5
          exact h5.right.describes
        obtain ⟨i1, -, -⟩ := hqd.ident hqk
        have hy := hn _ _ e2
        have hspot : Apart (p.text ++ texts cp) := by
          have h5 := hs (blen (pre ++ (p.text ++ texts cp))) (by rw [blen_append, blen_append, ← Nat.add_assoc, e2]; rfl)
          rw [e1, texts_cons, texts_append, ← List.append_assoc, ← List.append_assoc] at h5
          rw [← List.append_assoc] at h5
          rcases h5.at.1 with h6 | h6
          · simp [h1] at h6
          · rw [List.append_assoc] at h6
            exact h6.right (by simp [h1])
        rw [e1] at h2
        have hheads : NameHeads (texts (q :: rest)) (texts ((⟨q.kind, y⟩ : Piece) :: relabelPieces f (blen pre + blen p.text + blen (texts cp) + blen q.text) rest)) := by
          obtain ⟨c, cs, ec, hc1, -⟩ := i1
          obtain ⟨d, ds, ed, hd1, -⟩ := hy.name
          exact ⟨c, cs ++ texts rest, d, ds ++ texts (relabelPieces f (blen pre + blen p.text + blen (texts cp) + blen q.text) rest), by rw [texts_cons, ec]; rfl, by rw [texts_cons]; simp only [ed]; rfl,
            (nameStart_iff c).2 hc1, (nameStart_iff d).2 hd1⟩
        have := Lexer.findToken_swap ho h1 hspot hheads (t := t) (fun e => hc p List.mem_cons_self (by subst e; exact (Option.some.inj h3).symm)) (by
          rw [List.append_assoc, ← texts_append]; exact h2)
        rw [List.append_assoc, ← texts_append] at this
        exact this

theorem texts_relabel_whole {ps : List Piece} {ns : List (SyntaxKind × Nat)} {o : Nat} (hs : Spares f o ps) (hw : Whole f o ps ns) :
    texts (relabelPieces f o (glue ps ns)) = texts (relabelPieces f o ps) := by
  induction ns generalizing ps o with
  | nil => rfl
  | cons m ns ih =>
    obtain ⟨k, n⟩ := m
    obtain ⟨h1, h2⟩ := hw
    have hsplit : ps = ps.takeWhile (·.kind.isTrivia) ++ ((ps.dropWhile (·.kind.isTrivia)).take n ++
        (ps.dropWhile (·.kind.isTrivia)).drop n) := by
      rw [List.take_append_drop, List.takeWhile_append_dropWhile]
    conv => rhs; rw [hsplit, relabelPieces_append, relabelPieces_append]
    have hs' := hs
    rw [hsplit, Spares, Touches.append, Touches.append] at hs'
    simp only [glue, relabelPieces_append, texts_append, relabelPieces, texts_cons]
    rw [show ((ps.dropWhile (·.kind.isTrivia)).take n |>.map Piece.text).flatten = texts ((ps.dropWhile (·.kind.isTrivia)).take n) from rfl,
      ih hs'.2.2 h2, h1]

theorem Regroups.mem_trivia {ps ls : List Piece} (h : Regroups ps ls) {p : Piece} (hp : p ∈ ps) (ht : p.kind.isTrivia = true) : p ∈ ls := by
  induction h with
  | nil => exact hp
  | trivia t ps ls _ _ ih =>
    rcases List.mem_cons.1 hp with rfl | hp
    · exact List.mem_cons_self
    · exact List.mem_cons_of_mem _ (ih hp)
  | token k run ps ls _ hr _ _ ih =>
    rcases List.mem_append.1 hp with hp | hp
    · rw [hr p hp] at ht; cases ht
    · exact List.mem_cons_of_mem _ (ih hp)

/-- **The tree of a text with other names.** The identifiers that get a new name are whole leaves, neither they nor the new names
are words of the grammar, and they stand by themselves in the text: then the text with the new names has the same tree with the new
names at its leaves, and as many errors. -/
theorem reparse {g : List Char → Nat} (hg : Graphemes g) (hb : AsciiBreaks g) (ho : OneAhead g) {debug : Bool} {text : List Char}
    {fuel : Nat} (hfuel : 2 * text.length + 2 ≤ fuel) {t : Green} {errs : List Nat} (h : parseText g debug fuel text = .tree t errs)
    (ha : Aims Renamable f 0 t.leaves) (hn : ∀ q y, f q = some y → NewName y) (hs : ∀ q, (f q).isSome = true → Spot text q)
    (hc : ∀ p ∈ t.leaves, p.kind = .COMMENT → ['/', '*'] <+: p.text → Ascii p.text) :
    ∃ errs', parseText g debug fuel (t.relabel f 0).text = .tree (t.relabel f 0) errs' ∧ errs'.length = errs.length := by
  obtain ⟨r, ht, hlen⟩ := Lexer.C25_terminates hg fuel text (by omega)
  cases r with
  | none => simp [parseText, ht] at h
  | some raw =>
    obtain ⟨ps, p1, p2, p3⟩ := tokenize_pieces hg hb fuel text raw ht
    obtain ⟨l1, l2, l3⟩ := tokenize_lexes hg (by omega) ht p1
    have hsize : (source ps).length ≤ text.length := by
      have h2 : (source ps).length ≤ ps.length := by
        rw [source, sourceFrom_length]; exact withOffsets_length 0 ps
      have h3 : ps.length = raw.length := pieces_length p1
      have := hlen raw rfl
      omega
    have hv := valid_source p3 debug
    have hspec := parse_spec (I := ⟨source ps, debug⟩) (fuel := fuel) (by show 2 * (source ps).length + 2 ≤ fuel; omega)
    have h' := h
    unfold parseText at h'
    rw [ht] at h'
    simp only [p1] at h'
    cases hpar : parse ⟨source ps, debug⟩ fuel with
    | stop => rw [hpar] at h'; cases h'
    | panic w => rw [hpar] at h'; cases h'
    | ok u s =>
      rw [hpar] at h' hspec
      simp only at h'
      obtain ⟨cs, errs0, b1, b2, steps, e1, e2, e3, e4⟩ := Parses.tree p3 hspec
      rw [b1] at h'
      simp only [Parsed.tree.injEq] at h'
      obtain ⟨rfl, rfl⟩ := h'
      rw [Green.leaves, e2] at ha
      obtain ⟨w1, w2⟩ := aims_pieces p3 e3 e4 ha
      have hspare : Spares f 0 ps := w2.mono fun p _ hp => by rw [hp.ident]; rfl
      obtain ⟨errs', r1, r2⟩ := buildTree_relabel e1 hspare w1 b1
      have htext : ((Green.node .SOURCE_FILE cs).relabel f 0).text = texts (relabelPieces f 0 ps) := by
        unfold Green.text
        rw [relabel_leaves, Green.leaves, e2]
        exact texts_relabel_whole hspare w1
      have hlex : Lexes g (relabelPieces f 0 ps) := by
        refine relex hg hb ho [] l1 (w2.mono fun p _ hp => hp.ident) hn (fun q hq => by rw [List.nil_append, l2]; exact hs q hq) ?_
        exact fun p hp hk => hc p (by rw [Green.leaves]; exact b2.mem_trivia hp (by rw [hk]; rfl)) hk
      obtain ⟨toks, k1, k2⟩ := lexes_tokenize (fuel := fuel) hlex (by rw [relabelPieces_length]; exact l3)
      refine ⟨errs', ?_, r2⟩
      unfold parseText
      rw [htext, k1]
      simp only [k2]
      rw [← parse_alike (source_alike hspare (w2.mono fun p _ hp => hp.plain) fun o y hy => (hn o y hy).plain) fuel, hpar]
      simp only [r1]

end
end Verif.Parser
