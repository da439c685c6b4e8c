import Verif.Documents.Lemmas

/-! Property theorems about positions and document changes: C07, C09, C10. -/

namespace Verif.Documents
open Verif Spec

/-! ### C09: round trip of positions -/

/-- **C09.** For every document and every split of it into `a` and `b`, in every encoding: the offset
between them is reported as the position defined by the protocol, and that position is read back as the
same offset. -/
theorem C09_round_trip (enc : Encoding) (a b : List Char) :
    lspPosition enc (LineIndex.new (a ++ b)) (byteLen a) = some (posOf enc a) ∧
    offset enc (LineIndex.new (a ++ b)) (posOf enc a) = some (byteLen a) :=
  ⟨lspPosition_spec enc a b, offset_spec enc a b⟩

/-- **C09 (injectivity).** Different places in a document have different positions. -/
theorem C09_positions_distinct (enc : Encoding) (a b a' b' : List Char) (h : a ++ b = a' ++ b')
    (hp : posOf enc a = posOf enc a') : a = a' := by
  have h1 := offset_spec enc a b
  have h2 := offset_spec enc a' b'
  rw [h, hp, h2, Option.some.injEq] at h1
  obtain ⟨z, rfl⟩ := prefix_of_byteLen_le h (Nat.le_of_eq h1.symm)
  rw [byteLen_append] at h1
  cases z with
  | nil => simp
  | cons c z => rw [byteLen_cons] at h1; have := utf8Size_pos c; omega

/-- **C09 (order).** Later places have greater positions. -/
theorem C09_monotone (enc : Encoding) (a b : List Char) : (posOf enc a).le (posOf enc (a ++ b)) := by
  rw [posOf, posOf, posFrom_append]
  generalize posFrom enc 0 0 a = p
  obtain ⟨l, c⟩ := p
  induction b generalizing l c with
  | nil => exact Pos.le_refl _
  | cons x xs ih =>
    rw [posFrom]
    split
    · exact Pos.le_trans (Or.inl (Nat.lt_succ_self _)) (ih (l + 1) 0)
    · have h1 : Pos.le ⟨l, c⟩ ⟨l, c + units enc x⟩ := Or.inr ⟨rfl, Nat.le_add_right _ _⟩
      exact Pos.le_trans h1 (ih l (c + units enc x))

example : posOf .utf16 ['a', '\n', '😀', 'b'] = ⟨1, 3⟩ ∧ posOf .utf8 ['a', '\n', '😀', 'b'] = ⟨1, 5⟩ ∧
    byteLen ['a', '\n', '😀', 'b'] = 7 := by decide

/-! ### C10: columns past the end of a line -/

/-- **C10 fails.** Column 5 of the line `ab`, which has only two characters, is read as an offset on the
next line. -/
theorem C10_past_end_of_line_fails :
    ∃ (l r : List Char) (col : Nat), '\n' ∉ l ∧ unitsOf .utf16 l < col ∧
      offset .utf16 (LineIndex.new (l ++ '\n' :: r)) ⟨0, col⟩ ≠ some (byteLen l) ∧
      offset .utf16 (LineIndex.new (l ++ '\n' :: r)) ⟨0, col⟩ = some (byteLen (l ++ ['\n'])) :=
  ⟨['a', 'b'], ['c'], 5, by decide, by decide, by decide, by decide⟩

/-- **C10, partial.** A column past the end of line `p ++ l ++ r` (complete lines `p`, line `l`) is read as
the end of the line if it is the last one, and one byte further, after the line feed, if not. Missing: on
lines that are not the last the protocol asks for the end of the line itself. -/
theorem C10_past_end_of_line_partial (enc : Encoding) (p l r : List Char) (x : Nat) (hp : Full p)
    (hl : '\n' ∉ l) (hr : Rest r) :
    offset enc (LineIndex.new (p ++ l ++ r)) ⟨lfs p, unitsOf enc l + x⟩ =
      some (byteLen p + byteLen l + (if r = [] then 0 else min x 1)) := by
  unfold offset
  simp only
  rw [wideOf_line hp hl hr, line_full hp hl hr, utf8Col_past enc _ x hl]
  simp only [Option.map_some, Option.some.injEq]
  split <;> omega

/-- **C10 (never an error on an existing line).** Reading a position fails exactly if the document has no
such line; otherwise the offset lies in the document. -/
theorem C10_defined_iff (enc : Encoding) (t : List Char) (pos : Pos) :
    ((offset enc (LineIndex.new t) pos).isSome ↔ pos.line ≤ lfs t) ∧
    ∀ o, offset enc (LineIndex.new t) pos = some o → o ≤ byteLen t := by
  constructor
  · have : (offset enc (LineIndex.new t) pos).isSome = ((LineIndex.new t).startOffset pos.line).isSome := by
      simp [offset, LineIndex.line]
    rw [this]
    cases h : pos.line with
    | zero => simp [LineIndex.startOffset]
    | succ n =>
      simp only [LineIndex.startOffset, LineIndex.new]
      have hlen := newlinesFrom_length 0 t
      constructor
      · intro hs
        obtain ⟨v, hv⟩ := Option.isSome_iff_exists.1 hs
        have := (List.getElem?_eq_some_iff.1 hv).1
        omega
      · intro hs
        rw [List.getElem?_eq_getElem (by omega)]; rfl
  · intro o h
    rw [offset, Option.map_eq_some_iff] at h
    obtain ⟨⟨s, e⟩, h1, h2⟩ := h
    rw [LineIndex.line, Option.map_eq_some_iff] at h1
    obtain ⟨st, h3, h4⟩ := h1
    simp only [Prod.mk.injEq] at h4
    obtain ⟨p, x, hx, _, _, hv⟩ := exists_prefix_of_start h3
    have hs : st ≤ byteLen t := by rw [hx, byteLen_append]; omega
    have he : e ≤ byteLen t := by
      rw [← h4.2]
      cases hg : (LineIndex.new t).newlines[pos.line]? with
      | none => simp [LineIndex.new]
      | some v =>
        simp only [Option.getD_some]
        have := newlinesFrom_bounds (List.mem_of_getElem? hg)
        omega
    simp only at h2
    omega

/-! ### C07: incremental changes -/

/-- Invariant of the loop: the cached index is right for all lines before `indexValid`. -/
def CacheOk (st : State) : Prop :=
  match st.indexValid with
  | none => st.index = LineIndex.new st.text
  | some v => Same v st.index (LineIndex.new st.text)

theorem textRange_same {k ix iy} (h : Same k ix iy) {enc : Encoding} {r : Range}
    (h1 : r.start.line < k) (h2 : r.stop.line < k) : textRange enc ix r = textRange enc iy r := by
  rw [textRange, textRange, h.offset h1, h.offset h2]

/-- The index used by one iteration gives the same range as a fresh one, and agrees with a fresh one on
all lines before the start of the change. -/
theorem step_index {enc : Encoding} {st : State} {r : Range} (hc : CacheOk st)
    (hr : r.start.line ≤ r.stop.line) :
    let stale := match st.indexValid with
      | none => false
      | some v => decide (v ≤ r.stop.line)
    let index := if stale then LineIndex.new st.text else st.index
    textRange enc index r = textRange enc (LineIndex.new st.text) r ∧
      Same r.start.line index (LineIndex.new st.text) := by
  obtain ⟨t, ix, v⟩ := st
  cases v with
  | none =>
    simp only [CacheOk] at hc
    simp only [Bool.false_eq_true, if_false, hc, true_and]
    exact Same.refl _ _
  | some v =>
    simp only [CacheOk] at hc
    by_cases hv : v ≤ r.stop.line
    · simp only [hv, decide_true, if_true, true_and]; exact Same.refl _ _
    · simp only [hv, decide_false, Bool.false_eq_true, if_false]
      exact ⟨textRange_same hc (by omega) (by omega), hc.mono (by omega)⟩

theorem step_fresh {enc : Encoding} {st : State} {ch : Range × List Char} (hc : CacheOk st)
    (hr : ch.1.start.line ≤ ch.1.stop.line) :
    (applyStep enc st ch).map (·.text) = applyFresh enc st.text ch ∧
      ∀ st', applyStep enc st ch = some st' → CacheOk st' := by
  obtain ⟨h1, h2⟩ := step_index (enc := enc) hc hr
  unfold applyStep applyFresh
  simp only at h1 h2 ⊢
  generalize (if (match st.indexValid with
      | none => false
      | some v => decide (v ≤ ch.1.stop.line)) = true then LineIndex.new st.text else st.index) = ix at *
  rw [h1]
  cases hx : textRange enc (LineIndex.new st.text) ch.1 with
  | none =>
    refine ⟨rfl, ?_⟩
    intro st' h
    simp only [Option.some.injEq] at h
    subst h
    exact h2
  | some se =>
    obtain ⟨s, e⟩ := se
    simp only
    cases ht : replaceRange st.text s e ch.2 with
    | none => exact ⟨rfl, by simp⟩
    | some t' =>
      refine ⟨rfl, ?_⟩
      intro st' h
      simp only [Option.map_some, Option.some.injEq] at h
      subst h
      exact h2.trans (same_of_edit hx ht)

theorem loop_fresh {enc : Encoding} {st : State} {chs : List (Range × List Char)} (hc : CacheOk st)
    (hr : ∀ ch ∈ chs, ch.1.start.line ≤ ch.1.stop.line) :
    (applyLoop enc st chs).map (·.text) = chs.foldlM (applyFresh enc) st.text := by
  induction chs generalizing st with
  | nil => rfl
  | cons ch chs ih =>
    obtain ⟨h1, h2⟩ := step_fresh (enc := enc) hc (hr ch (by simp))
    rw [applyLoop, List.foldlM_cons, ← h1]
    cases hs : applyStep enc st ch with
    | none => rfl
    | some st' =>
      simp only [Option.bind_some, Option.map_some]
      exact ih (h2 st' hs) (fun c hcm => hr c (by simp [hcm]))

/-- **C07 (the cached index is never wrong).** For every text and every list of range edits, valid or not,
whose ranges do not go backwards over lines, the result (or panic) is the same as when every edit is
applied with an index computed from the text at that moment. -/
theorem C07_cached_index_transparent (enc : Encoding) (t : List Char)
    (chs : List (Range × List Char)) (hr : ∀ ch ∈ chs, ch.1.start.line ≤ ch.1.stop.line) :
    applyDocumentChanges enc t (chs.map fun c => .edit c.1 c.2) = chs.foldlM (applyFresh enc) t := by
  have hs : ∀ (l acc : List (Range × List Char)),
      scanReversed acc (l.map fun c => Change.edit c.1 c.2) = (none, acc ++ l) := by
    intro l
    induction l with
    | nil => simp [scanReversed]
    | cons c l ih => intro acc; rw [List.map_cons, scanReversed, ih]; simp
  unfold applyDocumentChanges
  rw [← List.map_reverse, hs]
  simp only [Option.getD_none, List.nil_append, List.reverse_reverse]
  exact loop_fresh (st := ⟨t, LineIndex.new t, none⟩) rfl hr

/-- **C07 (full replacement).** Everything before the last whole-document change is ignored. -/
theorem C07_whole_document (enc : Encoding) (t new : List Char) (pre post : List Change)
    (hpost : ∀ c ∈ post, ∃ r x, c = .edit r x) :
    applyDocumentChanges enc t (pre ++ .whole new :: post) = applyDocumentChanges enc new post := by
  have hs : ∀ (l : List Change), (∀ c ∈ l, ∃ r x, c = Change.edit r x) → ∀ acc rest,
      scanReversed acc (l ++ .whole new :: rest) = (some new, (scanReversed acc l).2) ∧
        (scanReversed acc l).1 = none := by
    intro l
    induction l with
    | nil => intro _ acc rest; simp [scanReversed]
    | cons c l ih =>
      intro h acc rest
      obtain ⟨r, x, rfl⟩ := h c (by simp)
      simp only [List.cons_append, scanReversed]
      exact ih (fun c hc => h c (by simp [hc])) _ _
  unfold applyDocumentChanges
  have e : (pre ++ .whole new :: post).reverse = post.reverse ++ .whole new :: pre.reverse := by simp
  obtain ⟨h1, h2⟩ := hs post.reverse (fun c hc => hpost c (by simpa using hc)) [] pre.reverse
  rw [e, h1]
  simp only [h2, Option.getD_some, Option.getD_none]

theorem textRange_spec (enc : Encoding) (a b c : List Char) :
    textRange enc (LineIndex.new (a ++ b ++ c)) ⟨posOf enc a, posOf enc (a ++ b)⟩ =
      some (byteLen a, byteLen (a ++ b)) := by
  unfold textRange
  simp only
  rw [offset_spec enc (a ++ b) c, List.append_assoc, offset_spec enc a (b ++ c)]
  simp

/-- **C07.** For every document and every sequence of changes a client can make (whole-document
replacements and edits of ranges of the current text, in any number, order and nesting of lines), in every
position encoding, the server ends with exactly the client's text. -/
theorem C07_changes_applied (enc : Encoding) (t t' : List Char) (cs : List Change)
    (h : Applies enc t cs t') : applyDocumentChanges enc t cs = some t' := by
  -- split at the last whole-document change
  have key : ∀ (cs : List Change) (t t' : List Char), Applies enc t cs t' →
      (∀ c ∈ cs, ∃ r x, c = Change.edit r x) → applyDocumentChanges enc t cs = some t' := by
    intro cs t t' h hed
    have : ∃ chs : List (Range × List Char), cs = chs.map (fun c => Change.edit c.1 c.2) ∧
        (∀ ch ∈ chs, ch.1.start.line ≤ ch.1.stop.line) ∧ chs.foldlM (applyFresh enc) t = some t' := by
      clear * - h hed
      induction h with
      | nil t => exact ⟨[], rfl, by simp, rfl⟩
      | whole t new cs t' _ _ =>
        obtain ⟨r, x, hx⟩ := hed (.whole new) (by simp)
        simp at hx
      | edit a b c new cs t' _ ih =>
        obtain ⟨chs, rfl, h1, h2⟩ := ih (fun c hc => hed c (by simp [hc]))
        refine ⟨(⟨posOf enc a, posOf enc (a ++ b)⟩, new) :: chs, rfl, ?_, ?_⟩
        · intro ch hch
          rcases List.mem_cons.1 hch with rfl | hch
          · have := C09_monotone enc a b
            unfold Pos.le at this
            simp only
            omega
          · exact h1 ch hch
        · rw [List.foldlM_cons]
          have : applyFresh enc (a ++ b ++ c) (⟨posOf enc a, posOf enc (a ++ b)⟩, new) =
              some (a ++ new ++ c) := by
            unfold applyFresh
            simp only [textRange_spec, replaceRange_append]
          rw [this]
          exact h2
    obtain ⟨chs, rfl, h1, h2⟩ := this
    rw [C07_cached_index_transparent enc t chs h1, h2]
  have split : ∀ (cs : List Change) (t t' : List Char), Applies enc t cs t' →
      (∀ c ∈ cs, ∃ r x, c = Change.edit r x) ∨
      ∃ pre new post, cs = pre ++ .whole new :: post ∧ (∀ c ∈ post, ∃ r x, c = Change.edit r x) ∧
        Applies enc new post t' := by
    intro cs t t' h
    induction h with
    | nil t => left; simp
    | whole t new cs t' h ih =>
      right
      rcases ih with ih | ⟨pre, n, post, rfl, h1, h2⟩
      · exact ⟨[], new, cs, rfl, ih, h⟩
      · exact ⟨.whole new :: pre, n, post, rfl, h1, h2⟩
    | edit a b c new cs t' h ih =>
      rcases ih with ih | ⟨pre, n, post, rfl, h1, h2⟩
      · left
        intro ch hch
        rcases List.mem_cons.1 hch with rfl | hch
        · exact ⟨_, _, rfl⟩
        · exact ih ch hch
      · right
        exact ⟨.edit _ new :: pre, n, post, rfl, h1, h2⟩
  rcases split cs t t' h with h1 | ⟨pre, new, post, rfl, h1, h2⟩
  · exact key cs t t' h h1
  · rw [C07_whole_document enc t new pre post h1]
    exact key post new t' h2 h1

/-- Two edits, the second on an earlier line (the cached index is reused), then a whole replacement and an
edit spanning lines. -/
example : Applies .utf16 ['a', '\n', 'b', '\n', 'c']
    [.edit ⟨⟨2, 0⟩, ⟨2, 1⟩⟩ ['x', '\n'], .edit ⟨⟨0, 1⟩, ⟨1, 0⟩⟩ ['q'], .whole ['é', '\n', 'z'],
      .edit ⟨⟨0, 1⟩, ⟨1, 1⟩⟩ []] ['é'] :=
  .edit ['a', '\n', 'b', '\n'] ['c'] [] _ _ _
    (.edit ['a'] ['\n'] ['b', '\n', 'x', '\n'] _ _ _
      (.whole _ _ _ _ (.edit ['é'] ['\n', 'z'] [] _ _ _ (.nil _))))

/-- **C07 fails for malformed ranges.** After an edit on line 1, a range going backwards from line 5 to
line 0 (which is ignored, as it should be) marks the stale index as valid again, and the next edit of
line 2 hits the wrong text. -/
theorem C07_stale_index_fails :
    ∃ (t : List Char) (chs : List (Range × List Char)),
      applyDocumentChanges .utf16 t (chs.map fun c => .edit c.1 c.2) ≠
        chs.foldlM (applyFresh .utf16) t :=
  ⟨['a', '\n', 'b', '\n', 'c', 'd', 'e', 'f', 'g', '\n', 'h', '\n', 'i', '\n', 'j'],
    [(⟨⟨1, 0⟩, ⟨1, 0⟩⟩, ['x', 'x']), (⟨⟨5, 0⟩, ⟨0, 0⟩⟩, []), (⟨⟨2, 0⟩, ⟨2, 1⟩⟩, ['Q'])], by decide⟩

/-- **C07 fails for columns inside a character.** A UTF-16 column between the two halves of a surrogate
pair crashes the server. -/
theorem C07_inside_surrogate_pair_panics_fails :
    applyDocumentChanges .utf16 ['😀'] [.edit ⟨⟨0, 1⟩, ⟨0, 1⟩⟩ ['a']] = none := by decide

/-- **C07 (panics).** The only panic is a position inside a character: if all offsets computed from the
ranges lie on character boundaries of the current text, an edit is applied. -/
theorem C07_no_panic (enc : Encoding) (t : List Char) (r : Range) (new : List Char)
    (hb : ∀ o, offset enc (LineIndex.new t) r.start = some o ∨ offset enc (LineIndex.new t) r.stop = some o →
      ∃ a b, t = a ++ b ∧ byteLen a = o) :
    (applyFresh enc t (r, new)).isSome := by
  unfold applyFresh
  simp only
  cases h : textRange enc (LineIndex.new t) r with
  | none => rfl
  | some se =>
    obtain ⟨s, e⟩ := se
    simp only
    rw [textRange, Option.bind_eq_some_iff] at h
    obtain ⟨s', h1, h2⟩ := h
    rw [Option.bind_eq_some_iff] at h2
    obtain ⟨e', h3, h4⟩ := h2
    split at h4
    · simp at h4
    · simp only [Option.some.injEq, Prod.mk.injEq] at h4
      obtain ⟨rfl, rfl⟩ := h4
      obtain ⟨a, b, hab, ha⟩ := hb _ (Or.inl h1)
      obtain ⟨c, d, hcd, hc⟩ := hb _ (Or.inr h3)
      have e1 : splitAtByte s' t = some (a, b) := by rw [hab, ← ha, splitAtByte_append]
      have e2 : splitAtByte e' t = some (c, d) := by rw [hcd, ← hc, splitAtByte_append]
      simp [replaceRange, e1, e2]

end Verif.Documents
