import Verif.Parser.Relex

/-! Texts of plain ASCII: how the segmentation crate splits other texts does not matter for them. And the trees of texts that are
given up to some names. -/

namespace Verif.Parser
open Verif.Syntax (SyntaxKind)
open Verif.Lexer (blen RawToken tokenize tokenizeLoop findToken Graphemes oneChar Ascii OneAhead split)

/-! ### ASCII -/

/-- ASCII without carriage returns. -/
def Simple (text : List Char) : Prop := ∀ c ∈ text, c.utf8Size = 1 ∧ c ≠ '\r'

instance (text : List Char) : Decidable (Simple text) := by unfold Simple; infer_instance

theorem Simple.append {a b : List Char} (ha : Simple a) (hb : Simple b) : Simple (a ++ b) := by
  intro c hc
  rcases List.mem_append.1 hc with h | h
  · exact ha c h
  · exact hb c h

theorem findToken_simple {g : List Char → Nat} (hg : Graphemes g) (hb : AsciiBreaks g) {text : List Char} (h : Simple text) :
    findToken g text = findToken oneChar text := by
  have : text.take (g text) = text.take (oneChar text) := by
    cases text with
    | nil => simp
    | cons c cs =>
      cases cs with
      | nil =>
        have := hg [c] (by simp)
        cases hn : g [c] with
        | zero => omega
        | succ n => simp [oneChar]
      | cons d cs => exact hb c d cs (h c (by simp)).1 (h d (by simp)).1 (h c (by simp)).2
  unfold findToken
  rw [this]

theorem tokenizeLoop_simple {g : List Char → Nat} (hg : Graphemes g) (hb : AsciiBreaks g) (fuel : Nat) {text : List Char} (h : Simple text) :
    tokenizeLoop g fuel text = tokenizeLoop oneChar fuel text := by
  induction fuel generalizing text with
  | zero => rfl
  | succ n ih =>
    unfold tokenizeLoop
    rw [findToken_simple hg hb h]
    split
    · rfl
    · rfl
    · cases hs : split ‹Nat› text with
      | none => rfl
      | some p =>
        obtain ⟨a, rest⟩ := p
        have hr : Simple rest := fun c hc => h c (by rw [(Lexer.split_sound _ _ _ _ hs).1]; simp [hc])
        dsimp only
        rw [ih hr]

/-- A text of plain ASCII has the same tree whatever the segmentation crate does with other texts. -/
theorem parseText_simple {g : List Char → Nat} (hg : Graphemes g) (hb : AsciiBreaks g) (debug : Bool) (fuel : Nat) {text : List Char}
    (h : Simple text) : parseText g debug fuel text = parseText oneChar debug fuel text := by
  unfold parseText tokenize
  rw [tokenizeLoop_simple hg hb fuel h]

theorem NewName.simple {y : List Char} (h : NewName y) : Simple y := by
  obtain ⟨c, cs, rfl, h1, h2⟩ := h.name
  have key : ∀ d : Char, (Lexer.isLetter d = true ∨ d = '_' ∨ Lexer.isDigit d = true) → d.utf8Size = 1 ∧ d ≠ '\r' := by
    intro d hd
    have hv : d.val.toNat < 128 ∧ d ≠ '\r' := by
      rcases hd with hd | rfl | hd
      · unfold Lexer.isLetter at hd
        simp only [Bool.or_eq_true, Bool.and_eq_true, decide_eq_true_eq, Char.le_def, UInt32.le_iff_toNat_le] at hd
        refine ⟨?_, ?_⟩
        · rcases hd with hd | hd
          · exact lt_of_le_of_lt hd.2 (by decide)
          · exact lt_of_le_of_lt hd.2 (by decide)
        · rintro rfl; exact absurd hd (by decide)
      · exact ⟨by decide, by decide⟩
      · unfold Lexer.isDigit at hd
        simp only [Bool.and_eq_true, decide_eq_true_eq, Char.le_def, UInt32.le_iff_toNat_le] at hd
        refine ⟨lt_of_le_of_lt hd.2 (by decide), ?_⟩
        rintro rfl; exact absurd hd (by decide)
    refine ⟨?_, hv.2⟩
    unfold Char.utf8Size
    rw [if_pos (UInt32.le_iff_toNat_le.2 (by simpa using Nat.le_of_lt_succ hv.1))]
  intro d hd
  rcases List.mem_cons.1 hd with rfl | hd
  · exact key _ (h1.imp id .inl)
  · exact key _ (h2 d hd)

theorem oneChar_ahead : OneAhead oneChar := fun _ _ _ _ _ _ => rfl

/-! ### Texts with names to fill in -/

/-- New names for some offsets. -/
def pick (qs : List (Nat × List Char)) (q : Nat) : Option (List Char) := (qs.find? fun x => x.1 == q).map Prod.snd

/-- The leaves at the offsets are identifiers that may get other names. -/
def aimsCheck (ks : List Nat) : Nat → List Piece → Bool
  | _, [] => true
  | o, l :: ls =>
    (!ks.contains o || (decide (l.kind = .IDENT) && (words.all fun w => l.text != w.toList) && l.text != ['_'] &&
      l.text != ['f', 'r', 'i', 'e', 'n', 'd'])) &&
    (ks.all fun k => !(decide (o < k) && decide (k < o + blen l.text))) && aimsCheck ks (o + blen l.text) ls

theorem pick_isSome {qs : List (Nat × List Char)} {q : Nat} : (pick qs q).isSome = true ↔ q ∈ qs.map Prod.fst := by
  unfold pick
  rw [Option.isSome_map, List.find?_isSome]
  simp only [beq_iff_eq, List.mem_map]

theorem pick_mem {qs : List (Nat × List Char)} {q : Nat} {y : List Char} (h : pick qs q = some y) : (q, y) ∈ qs := by
  unfold pick at h
  cases hf : qs.find? fun x => x.1 == q with
  | none => rw [hf] at h; cases h
  | some x =>
    rw [hf] at h
    have h1 := List.mem_of_find?_eq_some hf
    have h2 := List.find?_some hf
    simp only [Option.map_some, Option.some.injEq] at h
    obtain ⟨a, b⟩ := x
    simp only [beq_iff_eq] at h2 h
    rw [← h2, ← h]
    exact h1

theorem aims_of {qs : List (Nat × List Char)} {o : Nat} {ls : List Piece} (h : aimsCheck (qs.map Prod.fst) o ls = true) :
    Aims Renamable (pick qs) o ls := by
  induction ls generalizing o with
  | nil => trivial
  | cons l ls ih =>
    unfold aimsCheck at h
    simp only [Bool.and_eq_true, Bool.or_eq_true, Bool.not_eq_true', List.all_eq_true, decide_eq_true_eq, bne_iff_ne] at h
    obtain ⟨⟨h1, h2⟩, h3⟩ := h
    refine ⟨?_, ?_, ih h3⟩
    · intro hs
      rcases h1 with h1 | ⟨⟨⟨h1, h4⟩, h5⟩, h6⟩
      · rw [pick_isSome] at hs
        simp only [List.contains_eq_mem, decide_eq_false_iff_not] at h1
        exact absurd hs h1
      · exact ⟨h1, h4, h5, h6⟩
    · intro q hq hq'
      cases hp : pick qs q with
      | none => rfl
      | some y =>
        have := h2 q (pick_isSome.1 (by rw [hp]; rfl))
        simp [hq, hq'] at this

/-- The text before the offset and the one from there. -/
def spotCheck (text : List Char) (q : Nat) : Bool :=
  decide (blen (text.take q) = q) &&
  (match (text.take q).getLast? with
    | none => q == 0
    | some d => !Lexer.isNameChar d && d != '"') &&
  (match (text.drop q).dropWhile Lexer.isNameChar with
    | [] => true
    | d :: _ => decide (d.utf8Size = 1) && d != '"')

theorem spot_of {text : List Char} {q : Nat} (h : spotCheck text q = true) : Spot text q := by
  unfold spotCheck at h
  simp only [Bool.and_eq_true, decide_eq_true_eq] at h
  obtain ⟨⟨h1, h2⟩, h3⟩ := h
  refine ⟨text.take q, text.drop q, (List.take_append_drop q text).symm, h1, ?_, ?_⟩
  · cases hl : (text.take q).getLast? with
    | none => left; exact List.getLast?_eq_none_iff.1 hl
    | some d =>
      rw [hl] at h2
      right
      obtain ⟨w, hw⟩ := List.getLast?_eq_some_iff.1 hl
      simp only [Bool.and_eq_true, Bool.not_eq_true', bne_iff_ne] at h2
      exact ⟨w, d, hw, h2.1, h2.2⟩
  · intro d ds e
    rw [e] at h3
    simpa using h3

/-- The tree, if there is one. -/
def Parsed.green : Parsed → Option Green
  | .tree t _ => some t
  | _ => none

/-- **A text with names to fill in.** If the text with some names has a tree, then with other names instead, none of them a keyword or
a word of the grammar, it has the same tree with the other names. -/
theorem fill {debug : Bool} {text : List Char} {fuel : Nat} {t : Green} (h : (parseText oneChar debug fuel text).green = some t)
    (hfuel : 2 * text.length + 2 ≤ fuel) {qs : List (Nat × List Char)} (ha : aimsCheck (qs.map Prod.fst) 0 t.leaves = true)
    (hn : ∀ x ∈ qs, NewName x.2) (hs : ((qs.map Prod.fst).all (spotCheck text)) = true)
    (hc : (t.leaves.all fun p => p.kind != .COMMENT) = true) :
    (parseText oneChar debug fuel (t.relabel (pick qs) 0).text).green = some (t.relabel (pick qs) 0) := by
  cases hp : parseText oneChar debug fuel text with
  | tree t' errs =>
    rw [hp] at h
    obtain rfl : t' = t := by simpa [Parsed.green] using h
    obtain ⟨errs', h1, -⟩ := reparse (f := pick qs) (g := oneChar) (fun _ _ => Nat.le_refl _) (fun _ _ _ _ _ _ => rfl) oneChar_ahead hfuel hp (aims_of ha)
      (fun q y hy => hn _ (pick_mem hy)) (fun q hq => spot_of (List.all_eq_true.1 hs q (pick_isSome.1 hq)))
      (fun p hp' hk => by
        have := List.all_eq_true.1 hc p hp'
        simp [hk] at this)
    rw [h1]
    rfl
  | lexPanic => rw [hp] at h; cases h
  | panic w => rw [hp] at h; cases h
  | sinkPanic => rw [hp] at h; cases h
  | stop => rw [hp] at h; cases h

end Verif.Parser
