import Verif.Ide.RenameLocal

/-! C63: examples, and what renaming gets wrong. -/

namespace Verif.Ide.Rename
open Verif Verif.TextEdit Verif.Syntax Verif.Nameres
open Verif.Parser (Green Piece texts Spot NewName parseText)
open Verif.Lexer (blen oneChar)
open Verif.Ide.Usages hiding texts

/-- The text after a local variable was renamed. -/
def renamedText (kind : Kind) (new text : List Char) (path : List Nat) (name : List Char) (scope : Scope) (range : Nat × Nat) :
    Option Text :=
  match rename oneChar 10 kind new (usagesOf (localWorld (parseOf text).1) ⟨0, path⟩ name scope) 0 range with
  | some (some m) => apply ((m 0).getD []) (encode text)
  | _ => none

/-- The names of the fields of the structs, and the fields that are named in patterns in the short form. -/
def fieldNames (g : Green) (kind : SyntaxKind) : List (List Char) :=
  (((Elem.root g).descendants.filter fun e => decide (e.kind = kind)).filterMap fun e =>
    if kind = .NAMED_FIELD then nodeChild e .NAME else (nodeChild e .IDENT_PAT).bind fun i => nodeChild i .NAME).map nameText

def shortText : List Char := "module 0x1::m{struct S{x:u8}fun f(s:S){let S{x}=s;x}}".toList

/-- Renaming the variable of a pattern in the short form renames the field that the pattern asks for, which the struct does not
have. -/
theorem C63_shorthand_fails : (parseOf shortText).2 = true ∧
    fieldNames (parseOf shortText).1 .NAMED_FIELD = [['x']] ∧ fieldNames (parseOf shortText).1 .STRUCT_PAT_FIELD = [['x']] ∧
    ∃ after, scopeAt (parseOf shortText).1 27 = some [(0, some [(28, 52)])] ∧
      renamedText .binding ['y'] shortText [0, 1, 1, 2, 1, 4, 7, 0] ['x'] [(0, some [(28, 52)])] (45, 46) = some (encode after) ∧
      (parseOf after).2 = true ∧ fieldNames (parseOf after).1 .NAMED_FIELD = [['x']] ∧
      fieldNames (parseOf after).1 .STRUCT_PAT_FIELD = [['y']] :=
  ⟨by decide +kernel, by decide +kernel, by decide +kernel, "module 0x1::m{struct S{x:u8}fun f(s:S){let S{y}=s;y}}".toList,
    by decide +kernel⟩

def captureText : List Char := "module 0x1::m{fun f(a:u8){let b=1;a+b}}".toList

/-- A new name that is bound between the definition and a use is accepted, and the use refers to the other binding. -/
theorem C63_capture_fails : (parseOf captureText).2 = true ∧ localsAt (parseOf captureText).1 21 = [[0, 1, 3, 6, 0]] ∧
    ∃ after scope, scopeAt (parseOf captureText).1 10 = some scope ∧
      renamedText .binding ['b'] captureText [0, 1, 3, 6, 0] ['a'] scope (20, 21) = some (encode after) ∧
      (parseOf after).2 = true ∧ localsAt (parseOf after).1 21 = [[2, 1, 4, 6, 0]] :=
  ⟨by decide +kernel, by decide +kernel, "module 0x1::m{fun f(b:u8){let b=1;b+b}}".toList, [(0, some [(25, 38)])], by decide +kernel⟩

/-- A label is accepted as the new name of a variable; the text does not parse any more. -/
theorem C63_label_fails : (parseOf letText).2 = true ∧
    ∃ after, renamedText .binding ['\'', 'a'] letText [2, 1, 4, 6, 0] ['x'] [(0, some [(14, 38)])] (30, 31) = some (encode after) ∧
      (parseOf after).2 = false :=
  ⟨by decide +kernel, "module 0x1::m{fun f(s:u8){let 'a=1;'a+s}}".toList, by decide +kernel⟩

/-- The range in the answer to the preparation is the one of the definition, which need not be around the place that was asked for:
here the place is the use of a variable. The client gets it as a range of the file in which it asked. -/
theorem C63_prepare_fails : ∃ (node : List Elem) (cls : Option RefClass) (defName : NodeId → Option (List Char))
    (defRange : NodeId → Option (Nat × Nat)) (r : Nat × Nat),
    node = (tokenAt (parseOf letText).1 21).tail ∧ cls = (localWorld (parseOf letText).1).ref 0 node ∧
    (node.head?.map fun n => (n.start, n.stop)) = some (34, 35) ∧
    prepareRename defName defRange (some (.ref node cls)) = some r ∧ r = (30, 31) :=
  ⟨_, _, fun d => if d = ⟨0, [2, 1, 4, 6, 0]⟩ then some ['x'] else none,
    fun d => if d = ⟨0, [2, 1, 4, 6, 0]⟩ then some (30, 31) else none, (30, 31), rfl, rfl, by decide +kernel⟩

/-! ### An example that meets the hypotheses -/

def letNew : Nat → Nat → Option (List Char) := fun f q => if f = 0 ∧ (q = 30 ∨ q = 34) then some ['a', 'b'] else none

theorem plainUse_of {new : List Char} {n : Elem} {anc : List Elem}
    (h : ∀ e ∈ anc, e.kind ≠ .STRUCT_LIT_FIELD ∧ e.kind ≠ .STRUCT_PAT_FIELD) : PlainUse new n anc := by
  refine ⟨fun e he hk => absurd hk (h e he).1, fun p hp hk => ?_, fun p hp hk => ?_, ?_⟩
  · exact absurd hk (h p (List.mem_of_mem_head? (by rw [hp]; rfl))).1
  · exact absurd hk (h p (List.mem_of_mem_head? (by rw [hp]; rfl))).2
  · rintro - i p up rfl -
    exact (h p (by simp)).2

theorem letParsed : Parsed (parseOf letText).1 := by
  have h : (match parseText oneChar false 300 letText with | .tree .. => true | _ => false) = true := by decide +kernel
  unfold parseOf
  revert h
  cases he : parseText oneChar false 300 letText with
  | tree t errs =>
    exact fun _ => ⟨oneChar, false, letText, 300, errs, Parser.oneChar_graphemes, Parser.oneChar_breaks, by decide, he⟩
  | _ => intro h; cases h

/-- The tokens with the name, and whether they refer to the variable. -/
theorem letTokens : ((allTokens (parseOf letText).1).all fun l =>
    match l with
    | t :: n :: anc => decide (t.green.text ≠ ['x']) ||
        ((decide (t.start = 34) && decide ((localWorld (parseOf letText).1).ref 0 (n :: anc) = some (.definition ⟨0, [2, 1, 4, 6, 0]⟩)) ||
          (decide (t.start = 30) && decide ((localWorld (parseOf letText).1).ref 0 (n :: anc) = none))) &&
          anc.all fun e => decide (e.kind ≠ .STRUCT_LIT_FIELD) && decide (e.kind ≠ .STRUCT_PAT_FIELD))
    | _ => true) = true := by decide +kernel

theorem next_of {r : List Char} (h : (r.head?.all fun c => decide (c.utf8Size = 1) && decide (c ≠ '"')) = true) : Parser.Next r := by
  rintro d ds rfl
  simpa using h

theorem letSpot (q : Nat) (h : q = 30 ∨ q = 34) : Spot letText q := by
  rcases h with rfl | rfl
  · exact ⟨letText.take 30, letText.drop 30, (List.take_append_drop ..).symm, by decide +kernel,
      .inr ⟨letText.take 29, ' ', by decide +kernel, by decide +kernel, by decide⟩, next_of (by decide +kernel)⟩
  · exact ⟨letText.take 34, letText.drop 34, (List.take_append_drop ..).symm, by decide +kernel,
      .inr ⟨letText.take 33, ';', by decide +kernel, by decide +kernel, by decide⟩, next_of (by decide +kernel)⟩

/-- The hypotheses of `C63_edits_partial` and `C63_tree_partial` are met: renaming the variable of the statement. -/
theorem letSetting : Setting (localWorld (parseOf letText).1) ⟨0, [2, 1, 4, 6, 0]⟩ ['x'] ['a', 'b'] [(0, some [(14, 38)])] 0 (30, 31)
    letNew := by
  have htext : (parseOf letText).1.text = letText := by decide +kernel
  have hmem : ∀ {t n : Elem} {anc : List Elem}, Chain (parseOf letText).1 (t :: n :: anc) → t.green.isTok = true → t.green.text = ['x'] →
      (t.start = 34 ∧ (localWorld (parseOf letText).1).ref 0 (n :: anc) = some (.definition ⟨0, [2, 1, 4, 6, 0]⟩) ∨
        t.start = 30 ∧ (localWorld (parseOf letText).1).ref 0 (n :: anc) = none) ∧
      ∀ e ∈ anc, e.kind ≠ .STRUCT_LIT_FIELD ∧ e.kind ≠ .STRUCT_PAT_FIELD := by
    intro t n anc h1 h2 h3
    have := List.all_eq_true.1 letTokens _ ((mem_allTokens _ _).2 ⟨t, n :: anc, rfl, h1, h2⟩)
    simpa [h3] using this
  have hfile : ∀ {f o : Nat}, Covers [(0, some [(14, 38)])] f o → f = 0 := by
    rintro f o ⟨rs, h, -⟩
    simp at h
    exact h.1
  have htarget : ∀ f q, Target (localWorld (parseOf letText).1) ⟨0, [2, 1, 4, 6, 0]⟩ ['x'] [(0, some [(14, 38)])] 0 (30, 31) f q ↔
      f = 0 ∧ (q = 30 ∨ q = 34) := by
    intro f q
    constructor
    · rintro (⟨t, n, anc, h1, h2, h3, h4, h5, rfl⟩ | ⟨rfl, rfl⟩)
      · refine ⟨hfile h5, ?_⟩
        rcases (hmem h1 h2 h3).1 with h | h
        · exact .inr h.1
        · exact .inl h.1
      · exact ⟨rfl, .inl rfl⟩
    · rintro ⟨rfl, rfl | rfl⟩
      · exact .definition rfl rfl
      · have hc : ∃ l ∈ allTokens (parseOf letText).1, (l.head?.any fun t => decide (t.green.text = ['x']) && decide (t.start = 34)) = true ∧
            2 ≤ l.length := by decide +kernel
        obtain ⟨l, hl, h1, h2⟩ := hc
        obtain ⟨t, l', rfl, h3, h4⟩ := (mem_allTokens _ _).1 hl
        cases l' with
        | nil => simp at h2
        | cons n anc =>
          simp only [List.head?_cons, Option.any_some, Bool.and_eq_true, decide_eq_true_eq] at h1
          refine .use t n anc h3 h4 h1.1 (.use ?_) ⟨some [(14, 38)], by simp, ?_⟩ h1.2
          · rcases (hmem h3 h4 h1.1).1 with h | h
            · exact h.2
            · omega
          · rintro ranges ⟨⟩
            exact ⟨(14, 38), by simp, by omega, by omega⟩
  refine ⟨localWorld_sorted _, ⟨'x', [], rfl, by decide, by simp⟩, by simp, fun _ => letParsed, ?_, ?_, ?_, ?_⟩
  · have hc : ∃ l ∈ allTokens (parseOf letText).1, (match l with
        | t :: n :: _ => decide (t.green.text = ['x']) && decide (n.kind = .NAME) && decide (n.start = 30) && decide (n.stop = 31)
        | _ => false) = true := by decide +kernel
    obtain ⟨l, hl, h1⟩ := hc
    obtain ⟨t, l', rfl, h3, h4⟩ := (mem_allTokens _ _).1 hl
    cases l' with
    | nil => cases h1
    | cons n anc =>
      simp only [Bool.and_eq_true, decide_eq_true_eq] at h1
      exact ⟨t, n, anc, h3, h4, h1.1.1.1, h1.1.1.2, by rw [h1.1.2, h1.2]⟩
  · intro f q h
    show Spot (parseOf letText).1.text q
    rw [htext]
    exact letSpot q ((htarget f q).1 h).2
  · intro f t n anc h1 h2 h3 _
    exact plainUse_of (hmem h1 h2 h3).2
  · intro f q y
    rw [htarget]
    unfold letNew
    split
    · rename_i h
      simp [h, eq_comm]
    · rename_i h
      simp [h]

/-- What the edits give. -/
example : renamedText .binding ['a', 'b'] letText [2, 1, 4, 6, 0] ['x'] [(0, some [(14, 38)])] (30, 31) =
    some (encode "module 0x1::m{fun f(s:u8){let ab=1;ab+s}}".toList) := by decide +kernel

/-- The other hypotheses of `C63_tree_partial`. -/
example : Parser.Plain ['x'] ∧ NewName ['a', 'b'] ∧ (∀ p ∈ (parseOf letText).1.leaves, p.kind ≠ .COMMENT) ∧
    Parser.AsciiBreaks oneChar ∧ Lexer.OneAhead oneChar :=
  ⟨show ∀ w ∈ Parser.words, _ from by decide +kernel,
    ⟨⟨'a', ['b'], rfl, by decide, by decide⟩,
      fun k s h => (by decide +kernel : ∀ p ∈ Lexer.keywords, ['a', 'b'] ≠ p.2) (k, s) h,
      show ∀ w ∈ Parser.words, _ from by decide +kernel⟩,
    by decide +kernel, Parser.oneChar_breaks, fun _ _ _ _ _ _ => rfl⟩

/-- The variable of the statement, for `C63_local_partial`. -/
example : ∃ i it, Local (localWorld (parseOf letText).1) 0 i it ['x'] (30, 31) (fun _ => []) (fun _ => []) [] := by
  have hc : ∃ l ∈ allTokens (parseOf letText).1, (match l with
      | _ :: _ :: i :: _ => decide (i.kind = .IDENT_PAT) && decide (i.path = [2, 1, 4, 6, 0]) &&
        decide (bindingEntry 0 i = some ⟨['x'], .NAME, 0, [2, 1, 4, 6, 0]⟩) &&
        (match nodeChild i .NAME with
          | some nm => (tokenChild nm .IDENT).isSome && decide (nm.start = 30) && decide (nm.stop = 31)
          | none => false)
      | _ => false) = true := by decide +kernel
  obtain ⟨l, hl, h1⟩ := hc
  obtain ⟨t, l', rfl, h3, h4⟩ := (mem_allTokens _ _).1 hl
  cases l' with
  | nil => cases h1
  | cons n l'' =>
    cases l'' with
    | nil => cases h1
    | cons i up =>
      simp only [Bool.and_eq_true, decide_eq_true_eq] at h1
      obtain ⟨⟨⟨k1, k2⟩, k3⟩, k4⟩ := h1
      cases hn : nodeChild i .NAME with
      | none => rw [hn] at k4; cases k4
      | some nm =>
        rw [hn] at k4
        simp only [Bool.and_eq_true, decide_eq_true_eq] at k4
        obtain ⟨tok, htok⟩ := Option.isSome_iff_exists.1 k4.1.1
        refine ⟨i, _, inTree_chain h3 i (by simp), k1, k3, rfl, ⟨nm, tok, hn, htok, by rw [k4.1.2, k4.2]⟩, by simp, by simp, by simp, ?_⟩
        intro node pat
        exact ⟨by simp [localWorld], by simp [localWorld]⟩

end Verif.Ide.Rename
