import Verif.Parser.Props

/-! C31: texts on which the parser panics, and examples for the theorems of `Props.lean`. -/

namespace Verif.Parser
open Verif.Syntax (SyntaxKind)
open Verif.Lexer (oneChar)

def Parsed.why : Parsed → Option Why
  | .panic w => some w
  | _ => none

/-- The leaves of the tree and the offsets of the errors. -/
def Parsed.result : Parsed → Option (List Piece × List Nat)
  | .tree t errs => some (t.leaves, errs)
  | _ => none

theorem oneChar_breaks : AsciiBreaks oneChar := fun _ _ _ _ _ _ => rfl

theorem oneChar_graphemes : Lexer.Graphemes oneChar := fun _ _ => Nat.le_refl _

/-! The texts below have at most 70 characters, so the bound of 200 is enough fuel. -/

/-- **C31 fails (1).** A word that is no name between `module` and `::`, in any build. -/
theorem C31_module_path_fails (debug : Bool) :
    (parseText oneChar debug 200 "module use::m {}".toList).why = some (.expected .COLON_COLON) := by
  cases debug <;> decide +kernel

/-- **C31 fails (2).** A behaviour predicate with type arguments and no parentheses, in any build. -/
theorem C31_behavior_predicate_fails (debug : Bool) :
    (parseText oneChar debug 200 "module 0x1::m { spec f { requires_of<u8>; } }".toList).why = some (.expected .L_PAREN) := by
  cases debug <;> decide +kernel

/-- **C31 fails (3).** `apply` of a lemma without arguments, in any build. -/
theorem C31_apply_lemma_fails (debug : Bool) :
    (parseText oneChar debug 200 "module 0x1::m { spec f { } proof { apply foo; } }".toList).why = some (.expected .L_PAREN) := by
  cases debug <;> decide +kernel

/-- **C31 fails (4).** A conjunction of included schemas whose first operand is no schema, in any build. -/
theorem C31_include_fails (debug : Bool) :
    (parseText oneChar debug 200 "module 0x1::m { spec f { include Foo + 1 && Bar; } }".toList).why = some .bomb := by
  cases debug <;> decide +kernel

/-- **C31 fails (5).** An attribute whose bracket is not closed, while it is being typed, with debug assertions. -/
theorem C31_attribute_fails :
    (parseText oneChar true 200 "module 0x1::m { #[test fun f() {} }".toList).why = some .stuck := by
  decide +kernel

/-- **C31 fails (6).** A `|` where the first type argument should be, with debug assertions. -/
theorem C31_type_argument_fails :
    (parseText oneChar true 200 "module 0x1::m { fun f(a: S<|) {} }".toList).why = some .stuck := by
  decide +kernel

/-- **C31 fails (7).** A name pattern of 256 tokens, with overflow checks. -/
theorem C31_name_pattern_fails :
    (parseText oneChar true 800 ("module 0x1::m { spec module { apply Foo to a".toList ++ List.replicate 255 '*' ++ "; } }".toList)).why =
      some .overflow := by
  decide +kernel

/-! ### Examples -/

/-- A text with an operator of two tokens, a contextual keyword, comments and an error. -/
def sample : List Char := "module 0x1::m { /* c */ enum E {A} fun f() { a && ; } }".toList

/-- C28 and C30: the text has a tree; operator, keyword and comment are leaves and there is an error after `&&`. -/
example : ((parseText oneChar true 200 sample).result.map fun r => (r.1.contains ⟨.AMP_AMP, ['&', '&']⟩,
    r.1.contains ⟨.ENUM_KW, "enum".toList⟩, r.1.contains ⟨.COMMENT, "/* c */".toList⟩, r.2)) = some (true, true, true, [49]) := by
  decide +kernel

example : 2 * sample.length + 2 ≤ 200 := by decide

/-- C28 (any events): a block with one token. -/
example : ∃ cs errs, buildTree [⟨.L_CURLY, ['{']⟩] (.start .SOURCE_FILE none :: [.token .L_CURLY 1] ++ [.finish]) =
    some (.node .SOURCE_FILE cs, errs) ∧ cs ≠ [] := ⟨[.tok .L_CURLY ['{']], [], rfl, List.cons_ne_nil _ _⟩

/-- The tokens of the text `f(a`. -/
def smallInput : Input := ⟨[⟨.IDENT, true, ['f'], 0⟩, ⟨.L_PAREN, true, ['('], 0⟩, ⟨.IDENT, false, ['a'], 0⟩], true⟩

/-- An environment with nothing to recover at. -/
def smallEnv : Env := ⟨.new, .Move⟩

/-- C29: an attempt that consumes a token, reports an error, opens and completes a node and gives it a parent. -/
example : ∃ s, Ops smallInput smallEnv 1 ⟨0, [.start .SOURCE_FILE none, .tombstone]⟩ s ∧ s.pos = 2 ∧ s.events.length = 8 ∧
    rollback 1 smallInput smallEnv s = .ok () ⟨0, [.start .SOURCE_FILE none]⟩ := by
  refine ⟨_, .step (.step (.step (.step (.step (.step .none (.bump (k := .IDENT) (n := 1) (by decide) rfl)) (.start rfl))
    (.bump (k := .L_PAREN) (n := 1) (by decide) rfl)) (.error rfl)) (.complete (i := 3) (k := .ERROR) (by decide) rfl))
    (.precede (cm := ⟨3, .ERROR⟩) (by decide) rfl), rfl, rfl, rfl⟩

/-- C31 (partial): a script without any hazard. -/
def script : List Char := "script { /* c */ fun f() { let a = 1; g(a); } }".toList

theorem pieces_complete (ps : List Piece) :
    pieces (ps.map Piece.text).flatten (ps.map fun p => (⟨p.kind, Lexer.blen p.text⟩ : Lexer.RawToken)) = some ps := by
  induction ps with
  | nil => rfl
  | cons p ps ih =>
    simp only [List.map_cons, List.flatten_cons, pieces, Lexer.split_complete, Option.bind_eq_bind, Option.bind_some, ih]
    rfl

/-- The pieces of a text, if the lexer does not panic. -/
def piecesOf (fuel : Nat) (text : List Char) : Option (List Piece) :=
  ((Lexer.tokenize oneChar fuel text).bind id).bind (pieces text)

example : ∃ t errs, parseText oneChar false 200 script = .tree t errs := by
  refine C31_no_panic_partial oneChar_graphemes oneChar_breaks script (by decide) ?_ ?_
  · intro s hs n _ c hc
    have h1 : Lexer.Ascii script := by decide
    exact h1 c (hs.subset (List.mem_of_mem_take hc))
  · intro raw ps h1 h2 h3 hz
    have h4 : piecesOf 200 script = some ps := by
      unfold piecesOf
      rw [h1]
      show pieces script raw = some ps
      rw [← h2]
      conv => lhs; rw [← h3]
      exact pieces_complete ps
    have h5 : (piecesOf 200 script).map (fun ps => decide (∀ p ∈ significant ps, p.kind ≠ .MODULE_KW ∧
        p.text ∉ ["requires_of".toList, "aborts_of".toList, "ensures_of".toList, "result_of".toList, "apply".toList,
          "include".toList])) = some true := by decide +kernel
    rw [h4, Option.map_some, Option.some.injEq, decide_eq_true_eq] at h5
    generalize hts : significant ps = ts at hz h5
    cases hz with
    | module l a b c r e hk =>
      subst e
      exact (h5 a (by simp)).1 hk
    | behavior l a b r e ht =>
      subst e
      exact (h5 a (by simp)).2 (List.mem_append_left ["apply".toList, "include".toList] ht)
    | apply a ha ht => exact (h5 a ha).2 (by rw [ht]; decide)
    | «include» a ha ht => exact (h5 a ha).2 (by rw [ht]; decide)

end Verif.Parser
