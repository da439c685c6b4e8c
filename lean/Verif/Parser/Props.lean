import Verif.Parser.Text

/-! C28-C31: the tree reproduces the text, speculation leaves no trace, parsing ends, and when it panics. -/

namespace Verif.Parser
open Verif.Syntax (SyntaxKind)
open Verif.Lexer (blen RawToken tokenize Graphemes)

/-- The result of `parse_text`: a tree with the offsets of the errors of the parser, a panic of the lexer, of the parser
or of the sink, or (only in the model) not enough fuel. -/
inductive Parsed where
  | tree (t : Green) (errors : List Nat)
  | lexPanic
  | panic (w : Why)
  | sinkPanic
  | stop

/-- `parse_text` (parse.rs 39-56) with `source_file` as the entry point. The errors of the lexer are left out. -/
def parseText (g : List Char → Nat) (debug : Bool) (fuel : Nat) (text : List Char) : Parsed :=
  match tokenize g fuel text with
  | none => .stop
  | some none => .lexPanic
  | some (some raw) =>
    match pieces text raw with
    | none => .lexPanic
    | some ps =>
      match parse ⟨source ps, debug⟩ fuel with
      | .stop => .stop
      | .panic w => .panic w
      | .ok _ s =>
        match buildTree ps s.events with
        | none => .sinkPanic
        | some (t, errs) => .tree t errs

/-! ### The tree of a run -/

theorem Parses.tree {ps : List Piece} {debug : Bool} {s : St} (hf : ∀ p ∈ ps, Fine p)
    (h : Parses ⟨source ps, debug⟩ (.ok () s)) :
    ∃ cs errs, buildTree ps s.events = some (.node .SOURCE_FILE cs, errs) ∧ Regroups ps (Green.leavesList cs) ∧
      ∃ steps, process s.events = some steps ∧ Green.leavesList cs = glue ps (stepTokens steps) ∧ Fits ps (stepTokens steps) ∧
        Grouped ps (stepTokens steps) := by
  obtain ⟨ts, seg, inner, h1, h2, h3, h4⟩ := h
  obtain ⟨h5, h6, h7⟩ := regroup (I := ⟨source ps, debug⟩) (ps := ps) (p := 0) (o := 0) (prev := none) hf rfl h4
  have hc : ∀ p ∈ ps, p.kind = .COMMENT → (Comments.fromText p.text).isSome := by
    intro p hp hk
    obtain ⟨rest, hd⟩ := (hf p hp).described
    have hcm : Comments.IsComment p.text := by
      rcases hd.comment hk with h | h
      · exact Or.inr h
      · exact Or.inl h.1
    rw [Comments.C32_documented_kind _ hcm]; rfl
  rw [← h2.tokens] at h5 h6 h7
  obtain ⟨s', cs, errs, r1, r2, r3⟩ := sink_ok (root := .SOURCE_FILE) h3.bal h5 hc
  have hp : process s.events = some (.start .SOURCE_FILE :: inner ++ [.finish]) := by
    have := (Denotes.node (k := .SOURCE_FILE) (by decide) h2) []
    rw [List.append_nil, ← h1] at this
    rw [this]
    have h0 : process [] = some [] := rfl
    rw [h0]; simp
  have htok : stepTokens (.start .SOURCE_FILE :: inner ++ [.finish]) = stepTokens inner := by
    simp [stepTokens, stepTokens_append]
  refine ⟨cs, errs, ?_, r3 ▸ h6, _, hp, by rw [htok]; exact r3, by rw [htok]; exact h5, by rw [htok]; exact h7⟩
  unfold buildTree
  rw [hp]
  simp only [Option.bind_eq_bind, Option.bind_some, r1, r2]

theorem withOffsets_length (o : Nat) (ps : List Piece) : (withOffsets o ps).length ≤ ps.length := by
  induction ps generalizing o with
  | nil => simp [withOffsets]
  | cons p ps ih =>
    have := ih (o + blen p.text)
    unfold withOffsets
    split <;> simp only [List.length_cons] <;> omega

theorem pieces_raw {text : List Char} {raw : List RawToken} {ps : List Piece} (h : pieces text raw = some ps) :
    ps.map (fun p => (⟨p.kind, blen p.text⟩ : RawToken)) = raw := by
  induction raw generalizing text ps with
  | nil =>
    simp only [pieces, Option.some.injEq] at h
    subst h; rfl
  | cons t ts ih =>
    simp only [pieces, Option.bind_eq_bind, Option.bind_eq_some_iff, Option.pure_def, Option.some.injEq] at h
    obtain ⟨⟨a, rest⟩, h1, qs, h2, rfl⟩ := h
    have := (Lexer.split_sound _ _ _ _ h1).2
    simp [ih h2, this]

theorem pieces_length {text : List Char} {raw : List RawToken} {ps : List Piece} (h : pieces text raw = some ps) :
    ps.length = raw.length := by
  rw [← pieces_raw h, List.length_map]

/-- What is known of the result for enough fuel. -/
theorem parseText_spec {g : List Char → Nat} (hg : Graphemes g) (hb : AsciiBreaks g) (debug : Bool) (text : List Char)
    {fuel : Nat} (h1 : 2 * text.length + 2 ≤ fuel) :
    (parseText g debug fuel text = .lexPanic ∧ tokenize g fuel text = some none) ∨
    ∃ raw ps, tokenize g fuel text = some (some raw) ∧ pieces text raw = some ps ∧ (ps.map Piece.text).flatten = text ∧
      (∀ p ∈ ps, Fine p) ∧
      ((∃ cs errs, parseText g debug fuel text = .tree (.node .SOURCE_FILE cs) errs ∧ Regroups ps (Green.leavesList cs)) ∨
        ∃ w, parseText g debug fuel text = .panic w ∧ Allowed ⟨source ps, debug⟩ w) := by
  obtain ⟨r, ht, hlen⟩ := Lexer.C25_terminates hg fuel text (by omega)
  cases r with
  | none => exact .inl ⟨by simp [parseText, ht], ht⟩
  | some raw =>
    obtain ⟨ps, p1, p2, p3⟩ := tokenize_pieces hg hb fuel text raw ht
    refine .inr ⟨raw, ps, ht, p1, p2, p3, ?_⟩
    have hsize : (source ps).length ≤ text.length := by
      have h2 : (source ps).length ≤ ps.length := by
        rw [source, sourceFrom_length]; exact withOffsets_length 0 ps
      have h3 : ps.length = raw.length := pieces_length p1
      have := hlen raw rfl
      omega
    have := valid_source p3 debug
    have hs := parse_spec (I := ⟨source ps, debug⟩) (fuel := fuel) (by show 2 * (source ps).length + 2 ≤ fuel; omega)
    unfold parseText
    rw [ht]
    simp only [p1]
    revert hs
    cases parse ⟨source ps, debug⟩ fuel with
    | ok a s =>
      intro hs
      obtain ⟨cs, errs, b1, b2, -⟩ := Parses.tree p3 hs
      refine .inl ⟨cs, errs, ?_, b2⟩
      simp only [b1]
    | panic w =>
      intro hs
      exact .inr ⟨w, rfl, hs⟩
    | stop => exact False.elim

/-! ### C28 -/

/-- **C28.** For every text the tree that is returned has a single root, the file; its leaves are the tokens of the
lexer in order, white space and comments as they are and the others grouped into operators and renamed to keywords; and
the texts of the leaves concatenated are the text. -/
theorem C28_tree_reproduces_text {g : List Char → Nat} (hg : Graphemes g) (hb : AsciiBreaks g) (debug : Bool)
    (text : List Char) {fuel : Nat} (hf : 2 * text.length + 2 ≤ fuel) {t : Green} {errs : List Nat}
    (h : parseText g debug fuel text = .tree t errs) :
    (∃ cs, t = .node .SOURCE_FILE cs) ∧ t.text = text ∧
      ∃ raw ps, tokenize g fuel text = some (some raw) ∧ ps.map (fun p => (⟨p.kind, blen p.text⟩ : RawToken)) = raw ∧
        (ps.map Piece.text).flatten = text ∧ Regroups ps t.leaves := by
  rcases parseText_spec hg hb debug text hf with ⟨h1, -⟩ | ⟨raw, ps, h1, h2, h3, h4, ⟨cs, e, h5, h6⟩ | ⟨w, h5, -⟩⟩
  · rw [h] at h1; cases h1
  · rw [h] at h5
    cases h5
    refine ⟨⟨cs, rfl⟩, ?_, raw, ps, h1, pieces_raw h2, h3, h6⟩
    unfold Green.text
    simp only [Green.leaves]
    rw [h6.text, h3]
  · rw [h] at h5; cases h5

/-- **C28 (any grammar).** Whatever the events of a run are, if the calls they stand for are balanced and their tokens
fit the tokens of the lexer, then the sink builds one root whose leaves are the tokens, and their texts are the text. -/
theorem C28_any_events {toks : List Piece} {root : SyntaxKind} (hr : root ≠ .TOMBSTONE) {seg : List Event} {inner : List Step}
    (hd : Denotes seg inner) (hb : Bal inner) (hf : Fits toks (eventTokens seg))
    (hc : ∀ p ∈ toks, p.kind = .COMMENT → (Comments.fromText p.text).isSome) :
    ∃ cs errs, buildTree toks (.start root none :: seg ++ [.finish]) = some (.node root cs, errs) ∧
      (Green.node root cs).text = (toks.map Piece.text).flatten := by
  rw [← hd.tokens] at hf
  obtain ⟨s', cs, errs, r1, r2, r3⟩ := sink_ok (root := root) hb hf hc
  refine ⟨cs, errs, ?_, ?_⟩
  · have hp : process (.start root none :: seg ++ [.finish]) = some (.start root :: inner ++ [.finish]) := by
      have := (Denotes.node hr hd) []
      rw [List.append_nil] at this
      rw [this]
      have h0 : process [] = some [] := rfl
      rw [h0]; simp
    unfold buildTree
    rw [hp]
    simp only [Option.bind_eq_bind, Option.bind_some, r1, r2]
  · unfold Green.text
    simp only [Green.leaves]
    rw [r3, glue_text]

/-! ### C29 -/

/-- An operation of the parser interface that uses only markers after `m`, from one state to the next. Nothing is assumed
of the order of the operations nor of the kinds. -/
inductive Op (I : Input) (E : Env) (m : Nat) : St → St → Prop
  | start {s a s'} : start I E s = .ok a s' → Op I E m s s'
  | error {s a s'} : error I E s = .ok a s' → Op I E m s s'
  | bump {s k n a s'} : s.pos + n ≤ I.toks.length → doBump k n I E s = .ok a s' → Op I E m s s'
  | complete {s i k a s'} : m < i → complete i k I E s = .ok a s' → Op I E m s s'
  | precede {s cm a s'} : m < cm.pos → precede cm I E s = .ok a s' → Op I E m s s'
  | extendTo {s cm i a s'} : m < i → extendTo cm i I E s = .ok a s' → Op I E m s s'
  | abandon {s i a s'} : m < i → abandon i I E s = .ok a s' → Op I E m s s'
  | rollback {s i a s'} : m < i → rollback i I E s = .ok a s' → Op I E m s s'
  | rollbackTo {s i a s'} : m ≤ i → rollbackTo i I E s = .ok a s' → Op I E m s s'

/-- Some operations, one after the other. -/
inductive Ops (I : Input) (E : Env) (m : Nat) (s : St) : St → Prop
  | none : Ops I E m s s
  | step {s' s''} : Ops I E m s s' → Op I E m s' s'' → Ops I E m s s''

theorem width_append (a b : List Event) : width (a ++ b) = width a + width b := by
  induction a with
  | nil => simp [width]
  | cons e es ih => cases e <;> simp [width, ih, Nat.add_assoc]

theorem width_set {es : List Event} {i : Nat} {k k' : SyntaxKind} {fp fp' : Option Nat} (h : es[i]? = some (.start k fp)) :
    width (es.set i (.start k' fp')) = width es := by
  induction es generalizing i with
  | nil => simp at h
  | cons e es ih =>
    cases i with
    | zero =>
      simp only [List.getElem?_cons_zero, Option.some.injEq] at h
      subst h; simp [width]
    | succ i =>
      simp only [List.getElem?_cons_succ] at h
      simp only [List.set_cons_succ]
      cases e <;> simp [width, ih h]

/-- What a speculative run keeps: the events up to the marker, and the position as the tokens after it. -/
def Kept (s0 : St) (s : St) : Prop :=
  ∃ seg, s.events = s0.events ++ Event.tombstone :: seg ∧ s.pos = s0.pos + width seg

theorem Kept.set {s0 s : St} (h : Kept s0 s) {i : Nat} (hi : s0.events.length < i) {k k' : SyntaxKind} {fp fp' : Option Nat}
    (hs : s.events[i]? = some (.start k fp)) : Kept s0 ⟨s.pos, s.events.set i (.start k' fp')⟩ := by
  obtain ⟨seg, e1, e2⟩ := h
  obtain ⟨j, rfl⟩ : ∃ j, i = s0.events.length + (j + 1) := ⟨i - s0.events.length - 1, by omega⟩
  rw [e1, List.getElem?_append_right (by omega), Nat.add_sub_cancel_left, List.getElem?_cons_succ] at hs
  refine ⟨seg.set j (.start k' fp'), ?_, ?_⟩
  · simp only
    rw [e1, List.set_append, if_neg (by omega), Nat.add_sub_cancel_left, List.set_cons_succ]
  · simp only
    rw [width_set hs, e2]

theorem Kept.push {s0 s : St} (h : Kept s0 s) (e : Event) : Kept s0 ⟨s.pos + width [e], s.events ++ [e]⟩ := by
  obtain ⟨seg, e1, e2⟩ := h
  refine ⟨seg ++ [e], by simp [e1], ?_⟩
  simp only [width_append]; omega

theorem Kept.pop {s0 s s' : St} (h : Kept s0 s) {i : Nat} (hi : s0.events.length < i) {I : Input} {E : Env} {a : Unit}
    (hp : popTo i I E s = .ok a s') : Kept s0 s' := by
  obtain ⟨seg, e1, e2⟩ := h
  obtain ⟨j, rfl⟩ : ∃ j, i = s0.events.length + (j + 1) := ⟨i - s0.events.length - 1, by omega⟩
  unfold popTo at hp
  split at hp
  · cases hp
    have hd : s.events.drop (s0.events.length + (j + 1)) = seg.drop j := by
      rw [e1, List.drop_append]; simp
    have ht : s.events.take (s0.events.length + (j + 1)) = s0.events ++ Event.tombstone :: seg.take j := by
      rw [e1, List.take_append, List.take_of_length_le (by omega)]; simp
    refine ⟨seg.take j, ht, ?_⟩
    simp only [hd]
    have := width_append (seg.take j) (seg.drop j)
    rw [List.take_append_drop] at this
    omega
  · cases hp

theorem Kept.dropLast {s0 s : St} (h : Kept s0 s) (hi : s0.events.length < s.events.length - 1)
    (hl : s.events.getLast? = some (.start .TOMBSTONE none)) : Kept s0 ⟨s.pos, s.events.dropLast⟩ := by
  obtain ⟨seg, e1, e2⟩ := h
  have hne : seg ≠ [] := by
    rintro rfl
    rw [e1] at hi; simp at hi
  obtain ⟨seg', x, rfl⟩ : ∃ seg' x, seg = seg' ++ [x] := ⟨_, _, (List.dropLast_append_getLast hne).symm⟩
  have e3 : s.events = (s0.events ++ Event.tombstone :: seg') ++ [x] := by rw [e1]; simp
  rw [e3, List.getLast?_concat, Option.some.injEq] at hl
  subst hl
  refine ⟨seg', by simp only; rw [e3, List.dropLast_concat], ?_⟩
  simp only [e2, width_append, width, Nat.add_zero]

theorem Kept.op {I : Input} [I.Valid] {E : Env} {s0 s s' : St} (h : Kept s0 s) (ho : Op I E s0.events.length s s') : Kept s0 s' := by
  cases ho with
  | start h1 => cases h1; exact h.push _
  | error h1 => cases h1; exact h.push _
  | bump hn h1 =>
    cases h1
    rename_i k n
    rw [advance_eq hn]
    have := h.push (.token k n)
    simpa [width] using this
  | complete hi h1 =>
    unfold complete at h1
    split at h1
    · rename_i hs
      cases h1
      exact (h.set hi hs).push Event.finish
    · cases h1
  | precede hi h1 =>
    unfold precede at h1
    split at h1
    · rename_i hs
      cases h1
      exact (h.push Event.tombstone).set hi hs
    · cases h1
  | extendTo hi h1 =>
    unfold extendTo at h1
    split at h1
    · rename_i hs
      cases h1
      exact h.set hi hs
    · cases h1
  | abandon hi h1 =>
    unfold abandon at h1
    split at h1
    · split at h1
      · cases h1; exact h.dropLast (by omega) ‹_›
      · cases h1
    · cases h1; exact h
  | rollback hi h1 =>
    unfold rollback at h1
    split at h1
    · split at h1
      · cases h1; exact h.dropLast (by omega) ‹_›
      · cases h1
    · exact h.pop hi h1
  | rollbackTo hi h1 =>
    unfold rollbackTo at h1
    split at h1
    · exact h.pop (by omega) h1
    · cases h1

theorem Ops.kept {I : Input} [I.Valid] {E : Env} {s0 s : St} (h : Ops I E s0.events.length ⟨s0.pos, s0.events ++ [Event.tombstone]⟩ s) :
    Kept s0 s := by
  induction h with
  | none => exact ⟨[], rfl, rfl⟩
  | step _ ho ih => exact ih.op ho

/-- **C29.** A marker is started, any operations on later markers follow, and the marker is abandoned with rollback: the
state is exactly the one before. -/
theorem C29_rollback_restores (I : Input) [I.Valid] (E : Env) (s0 s : St)
    (h : Ops I E s0.events.length ⟨s0.pos, s0.events ++ [Event.tombstone]⟩ s) :
    rollback s0.events.length I E s = .ok () s0 := by
  obtain ⟨seg, e1, e2⟩ := h.kept
  obtain ⟨p0, ev0⟩ := s0
  obtain ⟨p, ev⟩ := s
  simp only at e1 e2 ⊢
  subst e1 e2
  unfold rollback
  split
  · rename_i hm
    have : seg = [] := by
      simp only [List.length_append, List.length_cons] at hm
      exact List.length_eq_zero_iff.1 (by omega)
    subst this
    rw [if_pos (by simp [Event.tombstone])]
    simp [width]
  · unfold popTo
    simp only [List.drop_left, List.take_left, width, Event.tombstone]
    rw [if_pos (by omega), Nat.add_sub_cancel]

/-- **C29 (completed marker).** The other form of rollback, to the number of events noted before the run, undoes any
operations on later markers as well. -/
theorem C29_completed_rollback_restores (I : Input) [I.Valid] (E : Env) (s0 s : St)
    (h : Ops I E s0.events.length ⟨s0.pos, s0.events ++ [Event.tombstone]⟩ s) :
    rollbackTo s0.events.length I E s = .ok () ⟨s0.pos, s0.events ++ [Event.tombstone]⟩ := by
  obtain ⟨seg, e1, e2⟩ := h.kept
  obtain ⟨p0, ev0⟩ := s0
  obtain ⟨p, ev⟩ := s
  simp only at e1 e2 ⊢
  subst e1 e2
  have hd : (ev0 ++ Event.tombstone :: seg).drop (ev0.length + 1) = seg := by rw [List.drop_append]; simp
  have ht : (ev0 ++ Event.tombstone :: seg).take (ev0.length + 1) = ev0 ++ [Event.tombstone] := by
    rw [List.take_append, List.take_of_length_le (by omega)]; simp
  unfold rollbackTo popTo
  rw [if_pos (by simp)]
  simp only [hd, ht]
  rw [if_pos (by omega), Nat.add_sub_cancel]

/-- **C29 (grammar).** The alternatives of the grammar are blocks between a marker and its end. For every block that
meets the judgement proved of the functions of the grammar: if it ends in a rollback, the state is the one before. -/
theorem C29_alternatives_leave_no_trace {I : Input} {α : Type} {Q : Outcome × α → Nat → Handle → Prop} {body : P (Outcome × α)} {E : Env} {s s1 s2 : St}
    {a b : α} {o : Option CM} (hs : s.pos ≤ I.size) (hb : T I s.pos none body Q)
    (h1 : body I E ⟨s.pos, s.events ++ [Event.tombstone]⟩ = .ok (.rollback, a) s1) (h2 : marked body I E s = .ok (o, b) s2) :
    s2 = s ∧ o = none ∧ b = a := by
  have h3 := hb E ⟨s.pos, s.events ++ [Event.tombstone]⟩ ⟨s.pos, s.events ++ [Event.tombstone]⟩ (Ext.refl _ _)
    (HandleOk.none _ _) rfl hs (by simp)
  rw [h1] at h3
  obtain ⟨-, -, h', e', -, -⟩ := h3
  have h4 : marked body I E s = .ok (none, a) s := by
    unfold marked
    show P.bind' start (fun m => P.bind' body _) I E s = _
    simp only [P.bind', start]
    rw [h1]
    show P.bind' (rollback s.events.length) (fun _ => P.pure' (none, a)) I E s1 = _
    simp only [P.bind', rollback_eq e' E]
    rfl
  rw [h4] at h2
  cases h2
  exact ⟨rfl, rfl, rfl⟩

/-! ### C30 -/

/-- **C30.** With a bound on the depth of the recursion that is linear in the length of the text, the parser never runs
into the bound: it terminates on every text. -/
theorem C30_terminates {g : List Char → Nat} (hg : Graphemes g) (hb : AsciiBreaks g) (debug : Bool) (text : List Char) :
    ∃ n, ∀ fuel ≥ n, parseText g debug fuel text ≠ .stop := by
  refine ⟨2 * text.length + 2, fun fuel hf => ?_⟩
  rcases parseText_spec hg hb debug text hf with ⟨h1, -⟩ | ⟨raw, ps, h1, h2, h3, h4, ⟨cs, e, h5, h6⟩ | ⟨w, h5, -⟩⟩
  · rw [h1]; simp
  · rw [h5]; simp
  · rw [h5]; simp

/-- **C30 (coverage).** Every token of the text is in the tree: it is a leaf, or a part of one leaf. -/
theorem C30_covers {g : List Char → Nat} (hg : Graphemes g) (hb : AsciiBreaks g) (debug : Bool)
    (text : List Char) {fuel : Nat} (hf : 2 * text.length + 2 ≤ fuel) {t : Green} {errs : List Nat}
    (h : parseText g debug fuel text = .tree t errs) :
    ∃ raw, tokenize g fuel text = some (some raw) ∧
      ∃ runs : List (List Piece), runs.flatten.map (fun p => (⟨p.kind, blen p.text⟩ : RawToken)) = raw ∧
        t.leaves.map Piece.text = runs.map (fun r => (r.map Piece.text).flatten) ∧ ∀ r ∈ runs, r ≠ [] := by
  obtain ⟨-, -, raw, ps, h1, h2, h3, h4⟩ := C28_tree_reproduces_text hg hb debug text hf h
  refine ⟨raw, h1, ?_⟩
  subst h2
  clear h1 h3 h
  generalize t.leaves = ls at h4 ⊢
  induction h4 with
  | nil => exact ⟨[], rfl, rfl, by simp⟩
  | trivia t ps ls _ _ ih =>
    obtain ⟨runs, e1, e2, e3⟩ := ih
    exact ⟨[t] :: runs, by simp [e1], by simp [e2], by simpa using e3⟩
  | token k run ps ls hne _ _ _ ih =>
    obtain ⟨runs, e1, e2, e3⟩ := ih
    refine ⟨run :: runs, by simp [e1], by simp [e2], ?_⟩
    intro r hr
    rcases List.mem_cons.1 hr with rfl | hr
    · exact hne
    · exact e3 r hr

/-! ### C31 -/

/-- The words and the punctuation of a text. -/
def significant (ps : List Piece) : List Piece := ps.filter fun p => !p.kind.isTrivia

/-- The places that can make the parser panic in a build without debug assertions. -/
inductive Hazard (ts : List Piece) : Prop
  /-- `module` and `::` with something between them that is no address and no name -/
  | module (l : List Piece) (a b c : Piece) (r : List Piece) : ts = l ++ a :: b :: c :: r → a.kind = .MODULE_KW →
      b.kind ∉ [SyntaxKind.INT_NUMBER, .IDENT, .COLON_COLON] → c.kind = .COLON_COLON → Hazard ts
  /-- a behaviour predicate with type arguments -/
  | behavior (l : List Piece) (a b : Piece) (r : List Piece) : ts = l ++ a :: b :: r →
      a.text ∈ ["requires_of".toList, "aborts_of".toList, "ensures_of".toList, "result_of".toList] → b.kind = .L_ANGLE → Hazard ts
  /-- the word `apply` -/
  | apply (a : Piece) : a ∈ ts → a.text = "apply".toList → Hazard ts
  /-- the word `include` -/
  | include (a : Piece) : a ∈ ts → a.text = "include".toList → Hazard ts

theorem source_map (ps : List Piece) :
    (source ps).map (fun t => (t.kind, t.text)) = (significant ps).map fun p => (p.kind, p.text) := by
  have h1 : ∀ o, (withOffsets o ps).map (·.1) = significant ps := by
    induction ps with
    | nil => intro o; rfl
    | cons p ps ih =>
      intro o
      unfold withOffsets significant
      split
      · rename_i ht
        rw [List.filter_cons_of_neg (by simp [ht])]
        exact ih _
      · rename_i ht
        rw [List.filter_cons_of_pos (by simp [ht])]
        simp only [List.map_cons]
        rw [ih]; rfl
  rw [← h1 0]
  apply List.ext_getElem?
  intro i
  rw [List.getElem?_map, source, sourceFrom_get]
  simp [List.getElem?_map, Function.comp_def]

theorem source_significant {ps : List Piece} {i : Nat} {t : PTok} (h : (source ps)[i]? = some t) :
    ∃ p, (significant ps)[i]? = some p ∧ p.kind = t.kind ∧ p.text = t.text := by
  have h2 := congrArg (fun l => l[i]?) (source_map ps)
  simp only [List.getElem?_map, h, Option.map_some] at h2
  cases hp : (significant ps)[i]? with
  | none => rw [hp] at h2; cases h2
  | some p =>
    rw [hp] at h2
    simp only [Option.map_some, Option.some.injEq, Prod.mk.injEq] at h2
    exact ⟨p, rfl, h2.1.symm, h2.2.symm⟩

theorem split_at {α : Type} {xs : List α} {i : Nat} {a : α} (h : xs[i]? = some a) : xs = xs.take i ++ a :: xs.drop (i + 1) := by
  obtain ⟨hi, rfl⟩ := List.getElem?_eq_some_iff.1 h
  rw [← List.drop_eq_getElem_cons hi, List.take_append_drop]

theorem kindAt_significant {ps : List Piece} {debug : Bool} {i : Nat} {k : SyntaxKind} (hk : k ≠ .EOF)
    (h : Input.kindAt ⟨source ps, debug⟩ i = k) : ∃ p, (significant ps)[i]? = some p ∧ p.kind = k := by
  unfold Input.kindAt at h
  simp only at h
  split at h
  · rename_i t ht
    obtain ⟨p, h1, h2, -⟩ := source_significant ht
    exact ⟨p, h1, h2.trans h⟩
  · exact absurd h.symm hk

theorem keyword_significant {ps : List Piece} {debug : Bool} {i : Nat} {w : String}
    (h : Input.isKeyword ⟨source ps, debug⟩ i w = true) : ∃ p, (significant ps)[i]? = some p ∧ p.text = w.toList := by
  unfold Input.isKeyword at h
  simp only at h
  split at h
  · rename_i t ht
    obtain ⟨p, h1, -, h2⟩ := source_significant ht
    exact ⟨p, h1, h2.trans (by simpa using h)⟩
  · cases h

theorem kindAt_of_significant {ps : List Piece} {debug : Bool} {i : Nat} {p : Piece} (h : (significant ps)[i]? = some p) :
    Input.kindAt ⟨source ps, debug⟩ i = p.kind := by
  have h1 := source_map ps
  have h2 := congrArg (fun l => l[i]?) h1
  simp only [List.getElem?_map, h, Option.map_some] at h2
  unfold Input.kindAt
  simp only
  cases ht : (source ps)[i]? with
  | none => rw [ht] at h2; cases h2
  | some t =>
    rw [ht] at h2
    simp only [Option.map_some, Option.some.injEq, Prod.mk.injEq] at h2
    exact h2.1

theorem Allowed.hazard {ps : List Piece} {w : Why} (h : Allowed ⟨source ps, false⟩ w) : Hazard (significant ps) := by
  unfold Allowed at h
  split at h
  · obtain ⟨p, h1, h2, h3, h4, h5⟩ := h
    obtain ⟨a, a1, a2⟩ := kindAt_significant (by decide) h1
    obtain ⟨c, c1, c2⟩ := kindAt_significant (by decide) h5
    have hlt := (List.getElem?_eq_some_iff.1 c1).1
    obtain ⟨b, b1⟩ : ∃ b, (significant ps)[p + 1]? = some b := ⟨_, List.getElem?_eq_getElem (by omega)⟩
    rw [kindAt_of_significant b1] at h2 h3 h4
    refine .module ((significant ps).take p) a b c ((significant ps).drop (p + 3)) ?_ a2 (by simp [h2, h3, h4]) c2
    conv => lhs; rw [split_at a1]
    congr 2
    obtain ⟨hb, rfl⟩ := List.getElem?_eq_some_iff.1 b1
    obtain ⟨hc, rfl⟩ := List.getElem?_eq_some_iff.1 c1
    rw [List.drop_eq_getElem_cons hb, List.drop_eq_getElem_cons hc]
  · obtain ⟨p, ⟨h1, h2⟩ | h1⟩ := h
    · obtain ⟨b, b1, b2⟩ := kindAt_significant (by decide) h2
      have key : ∃ a, (significant ps)[p]? = some a ∧
          a.text ∈ ["requires_of".toList, "aborts_of".toList, "ensures_of".toList, "result_of".toList] := by
        rcases h1 with h | h | h | h <;> obtain ⟨a, a1, a2⟩ := keyword_significant h <;> exact ⟨a, a1, by rw [a2]; simp⟩
      obtain ⟨a, a1, a2⟩ := key
      refine .behavior ((significant ps).take p) a b ((significant ps).drop (p + 2)) ?_ a2 b2
      conv => lhs; rw [split_at a1]
      congr 2
      obtain ⟨hb, rfl⟩ := List.getElem?_eq_some_iff.1 b1
      rw [List.drop_eq_getElem_cons hb]
    · obtain ⟨a, a1, a2⟩ := keyword_significant h1
      exact .apply a (List.mem_of_getElem? a1) a2
  · obtain ⟨p, h1⟩ := h
    obtain ⟨a, a1, a2⟩ := keyword_significant h1
    exact .include a (List.mem_of_getElem? a1) a2
  · cases h
  · cases h
  · exact h.elim

/-- **C31 (partial).** In a build without debug assertions the parser returns a tree for every text without a
`Hazard` whose block comments are ASCII. What is missing: the hazards, some of which do panic (below), and the assertions of
debug builds. -/
theorem C31_no_panic_partial {g : List Char → Nat} (hg : Graphemes g) (hb : AsciiBreaks g) (text : List Char)
    {fuel : Nat} (hf : 2 * text.length + 2 ≤ fuel) (ha : Lexer.AsciiComments text)
    (hz : ∀ raw ps, tokenize g fuel text = some (some raw) → ps.map (fun p => (⟨p.kind, blen p.text⟩ : RawToken)) = raw →
      (ps.map Piece.text).flatten = text → ¬ Hazard (significant ps)) :
    ∃ t errs, parseText g false fuel text = .tree t errs := by
  rcases parseText_spec hg hb false text hf with ⟨h1, h2⟩ | ⟨raw, ps, h1, h2, h3, h4, ⟨cs, e, h5, h6⟩ | ⟨w, h5, h6⟩⟩
  · unfold tokenize at h2
    split at h2
    · cases h2
    · obtain ⟨toks, h3⟩ := Lexer.loop_no_panic hg fuel text (by omega) ha
      rw [h3] at h2; cases h2
  · exact ⟨_, _, h5⟩
  · exact absurd h6.hazard (hz raw ps h1 (pieces_raw h2) h3)

/-- **C31 (sink, partial).** Whatever the grammar does short of a panic of its own, the events it leaves behind can be
turned into a tree: neither `event::process` nor the sink panics. -/
theorem C31_sink_never_panics_partial {g : List Char → Nat} (hg : Graphemes g) (hb : AsciiBreaks g) (debug : Bool) (text : List Char)
    {fuel : Nat} (hf : 2 * text.length + 2 ≤ fuel) : parseText g debug fuel text ≠ .sinkPanic := by
  rcases parseText_spec hg hb debug text hf with ⟨h1, -⟩ | ⟨raw, ps, h1, h2, h3, h4, ⟨cs, e, h5, h6⟩ | ⟨w, h5, -⟩⟩
  · rw [h1]; simp
  · rw [h5]; simp
  · rw [h5]; simp

end Verif.Parser
