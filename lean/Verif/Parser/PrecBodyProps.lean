import Verif.Parser.PrecBody
import Verif.Parser.PrecProps

/-! C64 for the bodies of functions. -/

namespace Verif.Parser
open Verif.Syntax (SyntaxKind)
open Verif.Lexer (oneChar Graphemes tokenize)

/-- A file for which the parser makes calls that leave the nodes they enter is read as these calls say. -/
theorem parseText_of_run {g : List Char → Nat} (hg : Graphemes g) (hb : AsciiBreaks g) {debug : Bool} {text : List Char} {fuel : Nat}
    (hfuel : 2 * text.length + 2 ≤ fuel) {raw : List Lexer.RawToken} {ps : List Piece} (ht : tokenize g fuel text = some (some raw))
    (hp : pieces text raw = some ps) {x : List Step} {q : Nat} (hl : Level x)
    (h : ∀ n, (source ps).length ≤ n → Emits ⟨source ps, debug⟩ ⟨RSet.new, .Move⟩ 0 (sourceFile (grammar n)) () q x) :
    ∃ t, parseText g debug fuel text = .tree t [] ∧ t.marks = marks x := by
  obtain ⟨r, ht', hlen⟩ := Lexer.C25_terminates hg fuel text (by omega)
  rw [ht] at ht'
  cases ht'
  obtain ⟨ps', p1, p2, p3⟩ := tokenize_pieces hg hb fuel text raw ht
  rw [hp] at p1
  cases p1
  have hv := valid_source p3 debug
  have hsize : (source ps).length ≤ text.length := by
    have h2 : (source ps).length ≤ ps.length := by
      rw [source, sourceFrom_length]; exact withOffsets_length 0 ps
    have h3 : ps.length = raw.length := pieces_length hp
    have := hlen raw rfl
    omega
  obtain ⟨s, h1, h2, seg, h3, h4, -⟩ := h fuel (by omega) ⟨0, []⟩ rfl
  have hproc : process s.events = some x := by
    have := h4 []
    rw [List.append_nil] at this
    have h5 : s.events = seg := by simpa using h3
    rw [h5, this]
    simp [process, processN]
  have hs := parse_spec (I := ⟨source ps, debug⟩) (fuel := fuel) (by show 2 * (source ps).length + 2 ≤ fuel; omega)
  have hpar : parse ⟨source ps, debug⟩ fuel = .ok () s := h1
  rw [hpar] at hs
  obtain ⟨cs, errs, b1, -⟩ := Parses.tree p3 hs
  obtain ⟨m1, m2⟩ := buildTree_marks hproc hl.1 hl.2.symm b1
  refine ⟨_, ?_, m1⟩
  unfold parseText
  rw [ht]
  simp only [hp, hpar, b1, m2]

theorem Stm.level_tree {s : Stm} (h : s.ex.Fits 1) : Level s.tree := by
  have hsemi : Level [tk .SEMICOLON] := Level.token (by decide)
  cases s with
  | expr e =>
    have := Level.node (k := .EXPR_STMT) ((Ex.level_tree e (m := 1) h).append hsemi)
    simpa [Stm.tree] using this
  | bind e =>
    have hname : Level [.start .NAME, tk .IDENT, .finish] := Level.node (a := [tk .IDENT]) (Level.token (by decide))
    have := Level.node (k := .LET_STMT) ((Level.token (k := .LET_KW) (by decide)).append ((Level.node (k := .IDENT_PAT) hname).append
      ((Level.token (k := .EQ) (by decide)).append ((Ex.level_tree e (m := 1) h).append hsemi))))
    simpa [Stm.tree] using this

theorem level_body {ss : List Stm} {e : Option Ex} (h : BodyFits ss e) : Level (bodyTree ss e) := by
  induction ss with
  | nil =>
    cases e with
    | none => exact Level.nil
    | some e => exact Ex.level_tree e (h.2 e rfl)
  | cons s ss ih =>
    exact (Stm.level_tree (h.1 s (List.mem_cons_self ..))).append (ih ⟨fun x hx => h.1 x (List.mem_cons_of_mem _ hx), h.2⟩)

theorem level_fun {ss : List Stm} {e : Option Ex} (h : BodyFits ss e) : Level (funTree ss e) := by
  have hname : Level [.start .NAME, tk .IDENT, .finish] := Level.node (a := [tk .IDENT]) (Level.token (by decide))
  have hblock := Level.node (k := .BLOCK_EXPR) ((Level.token (k := .L_CURLY) (by decide)).append ((level_body h).append
    (Level.token (k := .R_CURLY) (by decide))))
  have hparams := Level.node (k := .PARAM_LIST) ((Level.token (k := .L_PAREN) (by decide)).append (Level.token (k := .R_PAREN) (by decide)))
  have := Level.node (k := .SOURCE_FILE) (Level.node (k := .MODULE) ((Level.token (k := .MODULE_KW) (by decide)).append
    ((Level.node (k := .VALUE_ADDRESS) (Level.token (k := .INT_NUMBER) (by decide))).append
    ((Level.token (k := .COLON_COLON) (by decide)).append (hname.append ((Level.token (k := .L_CURLY) (by decide)).append
    ((Level.node (k := .FUN) ((Level.token (k := .FUN_KW) (by decide)).append (hname.append (hparams.append hblock)))).append
      (Level.token (k := .R_CURLY) (by decide)))))))))
  simpa [funTree, funItemTree, blockTree] using this

/-- **C64 (bodies, partial).** The text is `module 0x1::m { fun f() { … } }` with any names, any white space and comments, and in the
body any number of statements `e;` and `let x = e;` and perhaps an expression at the end. Then it is parsed without an error, and
the tree without its white space is the one these statements stand for: each statement ends at its own semicolon, and each
expression is grouped as its operators say. Missing: as in `C64_expression_partial`, other statements, and other patterns. -/
theorem C64_body_partial {g : List Char → Nat} (hg : Graphemes g) (hb : AsciiBreaks g) (debug : Bool) {text : List Char} {fuel : Nat}
    (hfuel : 2 * text.length + 2 ≤ fuel) {raw : List Lexer.RawToken} {ps : List Piece} (ht : tokenize g fuel text = some (some raw))
    (hp : pieces text raw = some ps) {ss : List Stm} {e : Option Ex} {q : Nat} (h : Input.IsFun ⟨source ps, debug⟩ ss e q)
    (hf : BodyFits ss e) :
    ∃ t, parseText g debug fuel text = .tree t [] ∧ t.marks = marks (funTree ss e) := by
  obtain ⟨ps', p1, p2, p3⟩ := tokenize_pieces hg hb fuel text raw ht
  rw [hp] at p1
  cases p1
  have hv := valid_source p3 debug
  have hq : q < (source ps).length := kindAt_lt (I := ⟨source ps, debug⟩) (by rw [h.rcurly]; decide)
  exact parseText_of_run hg hb hfuel ht hp (level_fun hf) (fun n hn => funFile_run h hf (by omega))

/-! ### Example -/

/-- A file with two statements and an expression at the end. -/
def bodyText : List Char := "module 0x1::m { fun f() { let x = a + b * c; *x = !a; x == (b) } }".toList

def bodyRaw : List Lexer.RawToken := ((tokenize oneChar 200 bodyText).getD none).getD []
def bodyPieces : List Piece := (pieces bodyText bodyRaw).getD []

/-- `let x = a + (b * c);` and `*x = !a;`. -/
def bodyStms : List Stm := [.bind (.bin .PLUS (.path false 0) (.bin .STAR (.path false 0) (.path false 0))),
  .expr (.bin .EQ (.un .deref (.path false 0)) (.un .not (.path false 0)))]

/-- `x == (b)`. -/
def bodyTail : Ex := .bin .EQ_EQ (.path false 0) (.paren (.path false 0))

theorem body_fits : BodyFits bodyStms (some bodyTail) := by
  refine ⟨?_, ?_⟩
  · simp only [bodyStms, List.mem_cons, List.not_mem_nil, or_false, forall_eq_or_imp, forall_eq, Stm.ex, Ex.Fits, Ex.last, Ex.minus]
    exact ⟨⟨by decide, by decide, by simp, by decide, ⟨by decide, by decide, by simp, by decide, by simp, by simp⟩, by simp⟩,
      by decide, by decide, by simp, by decide, by simp, by simp⟩
  · rintro _ ⟨⟩
    simp only [bodyTail, Ex.Fits, Ex.last, Ex.minus]
    exact ⟨by decide, by decide, by simp, by decide, by simp, by simp⟩

theorem body_input (debug : Bool) : Input.IsFun ⟨source bodyPieces, debug⟩ bodyStms (some bodyTail) 30 := by
  have hop : ∀ x ∈ [(14, SyntaxKind.PLUS), (16, .STAR), (21, .EQ), (26, .EQ_EQ)], Input.OpAt ⟨source bodyPieces, debug⟩ x.1 x.2 := by
    have hk : ∀ x ∈ [(14, SyntaxKind.PLUS), (16, .STAR), (21, .EQ), (26, .EQ_EQ)], Input.atKind ⟨source bodyPieces, debug⟩ x.1 x.2 = true ∧
        ∀ l ∈ levels, ∀ k' ∈ l, Input.atKind ⟨source bodyPieces, debug⟩ x.1 k' = true → (parts k').length ≤ (parts x.2).length := by
      cases debug <;> decide +kernel
    refine fun x hx => ⟨(hk x hx).1, fun k' hk' => ?_⟩
    obtain ⟨h1, -⟩ := hk'
    unfold level at h1
    split at h1
    · rename_i hl
      rw [List.any_eq_true] at hl
      obtain ⟨l, hl1, hl2⟩ := hl
      exact (hk x hx).2 l hl1 k' (List.contains_iff_mem.1 hl2)
    · exact absurd rfl h1
  have hplain : ∀ p ∈ [6, 11, 13, 15, 17, 20, 23, 25, 28], Input.kindAt ⟨source bodyPieces, debug⟩ p = .IDENT ∧
      ∀ w ∈ words, Input.textAt ⟨source bodyPieces, debug⟩ p ≠ w.toList := by
    cases debug <;> decide +kernel
  have hend : ∀ p ∈ [14, 16, 18, 21, 24, 26, 29], Input.kindAt ⟨source bodyPieces, debug⟩ p ≠ .COLON_COLON ∧
      Input.kindAt ⟨source bodyPieces, debug⟩ p ≠ .L_ANGLE ∧ Input.kindAt ⟨source bodyPieces, debug⟩ p ≠ .L_CURLY := by
    cases debug <;> decide +kernel
  have hname : ∀ p ∈ [13, 15, 17, 20, 23, 25, 28], Ex.At ⟨source bodyPieces, debug⟩ (.path false 0) p (p + 1) := by
    intro p hp
    have h1 := hend (p + 1) (by revert p; decide)
    exact ⟨⟨hplain p (by clear h1; revert p; decide), rfl⟩, ⟨h1.1, fun h => absurd h h1.2.1⟩, h1.2.2⟩
  have hk : ∀ x ∈ [(0, SyntaxKind.MODULE_KW), (1, .INT_NUMBER), (2, .COLON_COLON), (3, .IDENT), (4, .L_CURLY), (5, .FUN_KW), (6, .IDENT),
      (7, .L_PAREN), (8, .R_PAREN), (9, .L_CURLY), (10, .LET_KW), (11, .IDENT), (12, .EQ), (18, .SEMICOLON), (19, .STAR), (22, .BANG),
      (24, .SEMICOLON), (27, .L_PAREN), (29, .R_PAREN), (30, .R_CURLY), (31, .R_CURLY), (32, .EOF)],
      Input.kindAt ⟨source bodyPieces, debug⟩ x.1 = x.2 := by
    cases debug <;> decide +kernel
  have hparen : ∀ w ∈ words, Input.textAt ⟨source bodyPieces, debug⟩ 27 ≠ w.toList := by
    cases debug <;> decide +kernel
  have k (p : Nat) (kd : SyntaxKind) (h) : Input.kindAt ⟨source bodyPieces, debug⟩ p = kd := hk (p, kd) h
  refine ⟨k _ _ (by decide), k _ _ (by decide), k _ _ (by decide), k _ _ (by decide), k _ _ (by decide), k _ _ (by decide), k _ _ (by decide),
    (hplain 6 (by decide)).2, k _ _ (by decide), k _ _ (by decide), k _ _ (by decide), ?_, k _ _ (by decide), k _ _ (by decide), k _ _ (by decide)⟩
  refine ⟨19, ⟨k 10 _ (by decide), k 11 _ (by decide), (hplain 11 (by decide)).2, k 12 _ (by decide), 18, ?_, k 18 _ (by decide), rfl⟩,
    25, ⟨24, ?_, k 24 _ (by decide), rfl⟩, ?_⟩
  · exact ⟨14, hname 13 (by decide), hop (14, .PLUS) (by decide), 16, hname 15 (by decide), hop (16, .STAR) (by decide), hname 17 (by decide)⟩
  · exact ⟨21, ⟨20, ⟨k 19 _ (by decide), rfl⟩, hname 20 (by decide)⟩, hop (21, .EQ) (by decide), 23, ⟨k 22 _ (by decide), rfl⟩, hname 23 (by decide)⟩
  · refine ⟨26, hname 25 (by decide), hop (26, .EQ_EQ) (by decide), k 27 _ (by decide), ?_, 29, hname 28 (by decide), k 29 _ (by decide), rfl⟩
    exact hparen

example (debug : Bool) : ∃ t, parseText oneChar debug 200 bodyText = .tree t [] ∧ t.marks = marks (funTree bodyStms (some bodyTail)) :=
  C64_body_partial oneChar_graphemes oneChar_breaks debug (by decide) (by decide +kernel : tokenize oneChar 200 bodyText = some (some bodyRaw))
    (by decide +kernel : pieces bodyText bodyRaw = some bodyPieces) (body_input debug) body_fits

end Verif.Parser
