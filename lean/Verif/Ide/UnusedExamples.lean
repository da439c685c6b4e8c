import Verif.Ide.UnusedFix

/-! C73: examples, and what the warning and its fix get wrong. -/

namespace Verif.Ide.Unused
open Verif Verif.TextEdit Verif.Syntax Verif.Nameres Verif.Ide.Rename
open Verif.Parser (Green Spot NewName parseText)
open Verif.Lexer (blen oneChar)
open Verif.Ide.Usages hiding texts

/-- One file, in which names are looked up in the scopes around them. -/
def oneFile (g : Green) : Usages.World where
  tree _ := g
  ref file l := if file = 0 then (localWorld g).ref 0 l else none
  name _ _ := none

theorem oneFile_sorted (g : Green) : (oneFile g).Sorted := by
  intro file n anc
  refine ⟨fun h => ?_, fun h => absurd rfl h⟩
  refine (localWorld_sorted g 0 n anc).1 fun hc => h ?_
  show (if file = 0 then _ else none) = none
  rw [hc]
  split <;> rfl

def plainEnv (g : Green) : Env := ⟨oneFile g, fun _ _ => false, fun _ => [], [], [(0, none)]⟩

/-- The outcome for the binding at a token. -/
def verdictAt (text : List Char) (n : Nat) : Verdict := checkUnused (plainEnv (parseOf text).1) 0 ((tokenAt (parseOf text).1 n).drop 2)

/-- The text with the fix for the binding at a token. -/
def fixedAt (text : List Char) (n : Nat) : Option Text :=
  match (tokenAt (parseOf text).1 n).drop 2 with
  | i :: _ => (bindingName i).bind fun name => apply (fix i name) (encode text)
  | [] => none

/-- **C73 fails for the index of a `for`.** The index is used in the invariant of the loop (the `i` at token 29 finds it), and is
reported as unused. -/
theorem C73_loop_fails : (parseOf loopText).2 = true ∧ localsAt (parseOf loopText).1 29 = [[1, 1, 1, 4, 6, 0]] ∧
    (((tokenAt (parseOf loopText).1 17).drop 2).head?.map fun e => e.path) = some [1, 1, 1, 4, 6, 0] ∧
    verdictAt loopText 17 = .warn "Unused variable 'i'".toList (30, 31) := by decide +kernel

/-- **C73 fails for the parameters of a lemma.** The parameter is used in the proof, and is reported as unused. -/
theorem C73_proof_fails : (parseOf proofText).2 = true ∧ localsAt (parseOf proofText).1 24 = [[0, 1, 3, 1, 3, 6, 0]] ∧
    (((tokenAt (parseOf proofText).1 14).drop 2).head?.map fun e => e.path) = some [0, 1, 3, 1, 3, 6, 0] ∧
    verdictAt proofText 14 = .warn "Unused parameter 'x'".toList (34, 35) := by decide +kernel

def unusedField : List Char := "module 0x1::m{struct S{x:u8}fun f(s:S){let S{x}=s;}}".toList

/-- **C73 fails for patterns in the short form.** With the fix the pattern asks for a field that the struct does not have. -/
theorem C73_shorthand_fails : (parseOf unusedField).2 = true ∧ verdictAt unusedField 27 = .warn "Unused variable 'x'".toList (45, 46) ∧
    fieldNames (parseOf unusedField).1 .NAMED_FIELD = [['x']] ∧ fieldNames (parseOf unusedField).1 .STRUCT_PAT_FIELD = [['x']] ∧
    ∃ after, fixedAt unusedField 27 = some (encode after) ∧ (parseOf after).2 = true ∧
      fieldNames (parseOf after).1 .NAMED_FIELD = [['x']] ∧ fieldNames (parseOf after).1 .STRUCT_PAT_FIELD = [['_', 'x']] :=
  ⟨by decide +kernel, by decide +kernel, by decide +kernel, by decide +kernel,
    "module 0x1::m{struct S{x:u8}fun f(s:S){let S{_x}=s;}}".toList, by decide +kernel⟩

def unusedShadow : List Char := "module 0x1::m{fun f(_x:u8){let x=1;_x}}".toList

/-- **C73 fails where the new name is in use.** With the fix the name in the last expression refers to the variable that was unused
instead of the parameter. -/
theorem C73_capture_fails : (parseOf unusedShadow).2 = true ∧ verdictAt unusedShadow 17 = .warn "Unused variable 'x'".toList (31, 32) ∧
    localsAt (parseOf unusedShadow).1 21 = [[0, 1, 3, 6, 0]] ∧
    ∃ after, fixedAt unusedShadow 17 = some (encode after) ∧ (parseOf after).2 = true ∧
      localsAt (parseOf after).1 21 = [[2, 1, 4, 6, 0]] :=
  ⟨by decide +kernel, by decide +kernel, by decide +kernel, "module 0x1::m{fun f(_x:u8){let _x=1;_x}}".toList, by decide +kernel⟩

/-! ### Examples that meet the hypotheses -/

def unusedText : List Char := "module 0x1::m{fun f(s:u8){let x=1;s}}".toList

/-- The variable is reported, the parameter is not; the fix. -/
example : verdictAt unusedText 17 = .warn "Unused variable 'x'".toList (30, 31) ∧ verdictAt unusedText 10 = .quiet ∧
    fixedAt unusedText 17 = some (encode "module 0x1::m{fun f(s:u8){let _x=1;s}}".toList) := by decide +kernel

def exemptText : List Char := "module 0x1::m{fun f(self:u8,a:u8){|b|1;} native fun g(c:u8); #[test]fun h(d:u8){}}".toList

/-- Receivers, parameters of native functions and of tests may be unused; other parameters and those of lambdas may not. -/
example : (List.range 60).filterMap (fun n => match verdictAt exemptText n with | .quiet => none | v => some v) =
    [.warn "Unused parameter 'a'".toList (28, 29), .warn "Unused parameter 'b'".toList (35, 36)] := by decide +kernel

/-- The variable of the text, with what the theorems need. -/
theorem unusedVariable : ∃ i anc o up, Chain (parseOf unusedText).1 (i :: anc) ∧ i.kind = .IDENT_PAT ∧ i.children.length = 1 ∧
    bindingName i = some ['x'] ∧ OwnedBy anc o up ∧ o.kind = .LET_STMT ∧ isMslContext (i :: anc) = false ∧ i.start = 30 ∧
    i.path = [2, 1, 4, 6, 0] := by
  have hc : ∃ l ∈ allTokens (parseOf unusedText).1, (match l with
      | _ :: _ :: i :: anc => decide (i.kind = .IDENT_PAT) && decide (i.children.length = 1) && decide (bindingName i = some ['x']) &&
        ((firstOf identPatOwners anc).any fun l => l.head?.any fun o => decide (o.kind = .LET_STMT)) &&
        !isMslContext (i :: anc) && decide (i.start = 30) && decide (i.path = [2, 1, 4, 6, 0])
      | _ => false) = true := by decide +kernel
  obtain ⟨l, hl, h1⟩ := hc
  obtain ⟨t, l', rfl, h3, h4⟩ := (mem_allTokens _ _).1 hl
  match l', h1, h3 with
  | _ :: i :: anc, h1, h3 =>
    simp only [Bool.and_eq_true, decide_eq_true_eq] at h1
    obtain ⟨⟨⟨⟨⟨⟨k1, k2⟩, k3⟩, k4⟩, k5⟩, k6⟩, k7⟩ := h1
    obtain ⟨l, e1, e2⟩ := Option.any_eq_true _ _ |>.1 k4
    match l, e1, e2 with
    | o :: up, e1, e2 =>
      refine ⟨i, anc, o, up, ?_, k1, k2, k3, (owned_iff anc o up).1 e1, by simpa using e2, by simpa using k5, k6, k7⟩
      cases h3 with
      | child h5 _ =>
        cases h5 with
        | child h6 _ => exact h6

/-- No name refers to it. -/
theorem unused_none (f : Nat) (t n : Elem) (rest : List Elem) (h : Chain (parseOf unusedText).1 (t :: n :: rest))
    (htok : t.green.isTok = true) : ¬ Refers (oneFile (parseOf unusedText).1) ⟨0, [2, 1, 4, 6, 0]⟩ f (n :: rest) := by
  have hall : ((allTokens (parseOf unusedText).1).all fun l => match l with
      | _ :: n :: rest => match (localWorld (parseOf unusedText).1).ref 0 (n :: rest) with
        | some (.definition d) => decide (d ≠ ⟨0, [2, 1, 4, 6, 0]⟩)
        | some (.shorthand ..) => false
        | _ => true
      | _ => true) = true := by decide +kernel
  have := List.all_eq_true.1 hall _ ((mem_allTokens _ _).2 ⟨t, n :: rest, rfl, h, htok⟩)
  dsimp only at this
  have key : ∀ c, (oneFile (parseOf unusedText).1).ref f (n :: rest) = some c → (localWorld (parseOf unusedText).1).ref 0 (n :: rest) = some c := by
    intro c hc
    simp only [oneFile] at hc
    split at hc
    · exact hc
    · cases hc
  rintro (h | ⟨_, h⟩ | ⟨_, h⟩ | ⟨_, h⟩ | ⟨_, h⟩)
  · rw [key _ h] at this; simp at this
  · rw [key _ h] at this; simp at this
  · rw [key _ h] at this; simp at this
  · cases h
  · cases h

/-- The hypotheses of `C73_reported`, `C73_unused` and `C73_fix_partial` are met by the variable. -/
example : ∃ i anc o up, Chain (parseOf unusedText).1 (i :: anc) ∧ Grammatical i anc ∧ bindingName i = some ['x'] ∧ OwnedBy anc o up ∧
    ¬ Exempt (plainEnv (parseOf unusedText).1) 0 i anc ['x'] ∧ i.children.length = 1 ∧ Spot (parseOf unusedText).1.text i.start ∧
    (∀ f t n rest, Chain (parseOf unusedText).1 (t :: n :: rest) → t.green.isTok = true → t.green.text = ['x'] →
      ¬ Refers (oneFile (parseOf unusedText).1) ⟨0, i.path⟩ f (n :: rest)) := by
  obtain ⟨i, anc, o, up, h1, h2, h3, h4, h5, h6, h7, h8, h9⟩ := unusedVariable
  have hg : Grammatical i anc := by
    refine ⟨fun o' up' _ _ hm => ?_, fun p up' hp hk => ?_⟩
    · rw [h7] at hm; cases hm
    · obtain ⟨rfl, rfl⟩ := owned_unique h5 hp
      rw [h6] at hk; cases hk
  refine ⟨i, anc, o, up, h1, hg, h4, h5, ?_, h3, ?_, ?_⟩
  · intro he
    cases he with
    | underscore rest h => cases h
    | variant h => cases h
    | declared o' up' h1 h2 => obtain ⟨rfl, rfl⟩ := owned_unique h5 h1; rw [h6] at h2; rcases h2 with h2 | h2 <;> cases h2
    | included o' b' d up' inner outer _ _ hm => rw [h7] at hm; cases hm
    | receiver p l up' h1 h2 => obtain ⟨rfl, rfl⟩ := owned_unique h5 h1; rw [h6] at h2; cases h2
    | bodiless p l f up' h1 h2 => obtain ⟨rfl, rfl⟩ := owned_unique h5 h1; rw [h6] at h2; cases h2
    | test p l f up' h1 h2 => obtain ⟨rfl, rfl⟩ := owned_unique h5 h1; rw [h6] at h2; cases h2
    | loose p up' h1 h2 => obtain ⟨rfl, rfl⟩ := owned_unique h5 h1; rw [h6] at h2; cases h2
  · have htext : (parseOf unusedText).1.text = unusedText := by decide +kernel
    rw [htext, h8]
    exact ⟨unusedText.take 30, unusedText.drop 30, (List.take_append_drop ..).symm, by decide +kernel,
      .inr ⟨unusedText.take 29, ' ', by decide +kernel, by decide +kernel, by decide⟩, next_of (by decide +kernel)⟩
  · intro f t n rest a1 a2 _
    rw [h9]
    exact unused_none f t n rest a1 a2

/-- The other hypotheses of `C73_fix_partial`. -/
example : (oneFile (parseOf unusedText).1).Sorted ∧ (∀ f, Parsed ((oneFile (parseOf unusedText).1).tree f)) ∧ Lexer.IsName ['x'] ∧
    Parser.Plain ['x'] :=
  ⟨oneFile_sorted _, fun _ => parseOf_parsed (by decide +kernel) (by decide +kernel), ⟨'x', [], rfl, by decide, by simp⟩,
    show ∀ w ∈ Parser.words, _ from by decide +kernel⟩

/-- The hypotheses of `C73_used_partial` and `C73_scopes_partial` are met by the parameter: the `s` in the last expression finds it, in the
block that is searched. -/
example : localsAt (parseOf unusedText).1 21 = [[0, 1, 3, 6, 0]] ∧ PlainPatterns (parseOf unusedText).1 ∧
    (((tokenAt (parseOf unusedText).1 10).drop 2).head?.map fun e => e.path) = some [0, 1, 3, 6, 0] ∧
    scopeAt (parseOf unusedText).1 10 = some [(0, some [(25, 36)])] ∧
    ((tokenAt (parseOf unusedText).1 21).head?.map fun e => e.start) = some 34 ∧
    headStart ((tokenAt (parseOf unusedText).1 21).drop 3) = 34 :=
  ⟨by decide +kernel, plainPatterns_iff (by decide +kernel), by decide +kernel, by decide +kernel, by decide +kernel, by decide +kernel⟩

/-- A parameter with a tuple of patterns, which the parser does not make. -/
def tupleParam : Green := .node .PARAM [.node .TUPLE_PAT [.node .IDENT_PAT [.node .NAME [.tok .IDENT ['a']]]]]

/-- The hypotheses of `C73_panic`. -/
example : ∃ i anc p, bindingName i = some ['a'] ∧ OwnedBy anc p [] ∧ p.kind = .PARAM ∧ ∀ n, ¬ ParamNamed p n := by
  refine ⟨⟨[0, 0], 0, .node .IDENT_PAT [.node .NAME [.tok .IDENT ['a']]]⟩, [⟨[0], 0, .node .TUPLE_PAT [.node .IDENT_PAT [.node .NAME
    [.tok .IDENT ['a']]]]⟩, ⟨[], 0, tupleParam⟩], ⟨[], 0, tupleParam⟩, by decide +kernel, ⟨[_], rfl, ?_, by decide⟩, rfl, fun n hn => ?_⟩
  · intro e he
    rw [List.mem_singleton] at he
    subst he
    decide
  · have h : paramName ⟨[], 0, tupleParam⟩ = none := by decide +kernel
    rw [← paramName_iff, h] at hn
    cases hn

end Verif.Ide.Unused
