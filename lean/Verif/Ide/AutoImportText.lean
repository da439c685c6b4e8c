import Verif.Ide.AutoImport
import Verif.Parser.Ascii
import Lean.Elab.Tactic

/-! The texts that "Add import" puts together, and the trees that the parser has for them. -/

namespace Verif.Nameres.AutoImport
open Verif.Parser (Green parseText Simple NewName pick fill aimsCheck spotCheck AsciiBreaks parseText_simple)
open Verif.Lexer (Graphemes oneChar)
open Verif.Syntax Verif.Editor
open Verif.Ide (firstNode)
open Verif.Ide.Organize (joinPath segmentTexts)

open Lean Elab Tactic Meta in
/-- The two sides of the goal compute to the same value: this is left to the kernel. -/
elab "computed" : tactic => do
  let g ← getMainGoal
  match (← instantiateMVars (← g.getType)).consumeMData.eq? with
  | some (α, a, _) => g.assign (mkApp2 (mkConst ``Eq.refl [← getLevel α]) α a)
  | none => throwError "no equation"

/-- `SourceFile::parse`. The number bounds the steps of the parser; it is more than enough for the texts below. -/
def parser (g : List Char → Nat) (debug : Bool) (text : Text) : Option Green := (parseText g debug 300 text).green

/-- The tree of a text. -/
def treeOf (debug : Bool) (text : Text) : Green := ((parseText oneChar debug 300 text).green).getD (.node .ERROR [])

theorem template {g : List Char → Nat} (hg : Graphemes g) (hb : AsciiBreaks g) {debug : Bool} {tpl text : Text} {qs : List (Nat × Text)}
    (hsome : (parseText oneChar debug 300 tpl).green = some (treeOf debug tpl)) (hlen : decide (2 * tpl.length + 2 ≤ 300) = true)
    (ha : aimsCheck (qs.map Prod.fst) 0 (treeOf debug tpl).leaves = true) (hs : ((qs.map Prod.fst).all (spotCheck tpl)) = true)
    (hc : ((treeOf debug tpl).leaves.all fun p => p.kind != .COMMENT) = true)
    (ht : ((treeOf debug tpl).relabel (pick qs) 0).text = text) (hn : ∀ x ∈ qs, NewName x.2) (hsimple : Simple text) :
    parser g debug text = some ((treeOf debug tpl).relabel (pick qs) 0) := by
  unfold parser
  rw [parseText_simple hg hb debug 300 hsimple, ← ht]
  exact fill hsome (of_decide_eq_true hlen) ha hn hs hc

/-! ### The trees of imports -/

/-- The segment of a name. -/
def nameSeg (a : Text) : Green := .node .PATH_SEGMENT [.node .NAME_REF [.tok .IDENT a]]

/-- The segment of an address. -/
def valueSeg (a : Text) : Green := .node .PATH_SEGMENT [.node .PATH_ADDRESS [.node .VALUE_ADDRESS [.tok .INT_NUMBER a]]]

def colons : Green := .tok .COLON_COLON [':', ':']

/-- `a::b`. -/
def pathTo (A : Green) (b : Text) : Green := .node .PATH [.node .PATH [A], colons, nameSeg b]

/-- `a::b::c`. -/
def pathIn (A : Green) (b c : Text) : Green := .node .PATH [pathTo A b, colons, nameSeg c]

/-- The path of an import: of a module or of an item. -/
def full (A : Green) (b : Text) : Option Text → Green
  | none => pathTo A b
  | some c => pathIn A b c

/-- Its text. -/
def fullText (a b : Text) : Option Text → Text
  | none => a ++ ("::".toList ++ b)
  | some c => a ++ ("::".toList ++ (b ++ ("::".toList ++ c)))

def testOnlyAttr : Green := .node .ATTR [.tok .POUND ['#'], .tok .L_BRACK ['['], .node .ATTR_ITEM [.node .PATH [nameSeg "test_only".toList]], .tok .R_BRACK [']']]

/-- A use statement. If it is for tests, it has the attribute on a line before it; the text is the white space that the line starts with. -/
def stmtTree : Option Text → Green → Green
  | none, p => .node .USE_STMT [.tok .USE_KW "use".toList, .tok .WHITESPACE [' '], .node .USE_SPECK [p], .tok .SEMICOLON [';']]
  | some ind, p => .node .USE_STMT [testOnlyAttr, .tok .WHITESPACE ('\n' :: ind), .tok .USE_KW "use".toList, .tok .WHITESPACE [' '],
      .node .USE_SPECK [p], .tok .SEMICOLON [';']]

/-- The first part of the path of an import: a name that is no keyword and none of the words of the grammar, or `0x1`. -/
inductive Lead : Text → Green → Prop where
  | name {a} : NewName a → Lead a (nameSeg a)
  | one : Lead "0x1".toList (valueSeg "0x1".toList)

theorem Lead.simple {a : Text} {A : Green} (h : Lead a A) : Simple a := by
  cases h with
  | name h => exact h.simple
  | one => decide

theorem Lead.text {a : Text} {A : Green} (h : Lead a A) : A.text = a := by
  cases h with
  | name h => simp [nameSeg, Green.text, Green.leaves, Green.leavesList]
  | one => decide

theorem full_text {a b : Text} {A : Green} (h : Lead a A) (c : Option Text) : (full A b c).text = fullText a b c := by
  have ht := h.text
  cases c <;> simp [full, fullText, pathTo, pathIn, colons, nameSeg, Green.text_node, Green.text_tok, ht]

theorem fullText_simple {a b : Text} {A : Green} (h : Lead a A) (hb : NewName b) (c : Option Text) (hc : ∀ x ∈ c, NewName x) :
    Simple (fullText a b c) := by
  have h2 : Simple "::".toList := by decide
  cases c with
  | none => exact h.simple.append (h2.append hb.simple)
  | some x => exact h.simple.append (h2.append (hb.simple.append (h2.append (hc x rfl).simple)))

/-! ### What the factory makes -/

section
variable {g : List Char → Nat} (hg : Graphemes g) (hb : AsciiBreaks g)
include hg hb

theorem make_of {debug : Bool} {k : SyntaxKind} {cs : List Green} {text : Text} (tpl : Text) (qs : List (Nat × Text))
    (hn : ∀ x ∈ qs, NewName x.2) (hsimple : Simple text)
    (hsome : (parseText oneChar debug 300 tpl).green = some (treeOf debug tpl)) (hlen : decide (2 * tpl.length + 2 ≤ 300) = true)
    (ha : aimsCheck (qs.map Prod.fst) 0 (treeOf debug tpl).leaves = true) (hs : ((qs.map Prod.fst).all (spotCheck tpl)) = true)
    (hc : ((treeOf debug tpl).leaves.all fun p => p.kind != .COMMENT) = true)
    (hf : firstNode k ((treeOf debug tpl).relabel (pick qs) 0) = some cs)
    (ht : ((treeOf debug tpl).relabel (pick qs) 0).text = text) :
    make (parser g debug) k text = some (.node k cs) := by
  unfold make
  rw [template hg hb hsome hlen ha hs hc ht hn hsimple, Option.bind_some, hf]
  rfl

theorem make_name (debug : Bool) {a : Text} (ha : NewName a) :
    make (parser g debug) .PATH_SEGMENT (segmentText a) = some (nameSeg a) := by
  have hs : Simple (segmentText a) := by
    unfold segmentText
    exact (Simple.append (by decide) ha.simple).append (by decide)
  have hn : ∀ x ∈ [(37, a)], NewName x.2 := by simpa using ha
  cases debug <;> exact make_of hg hb (segmentText ['a']) [(37, a)] hn hs (by computed) (by computed) (by computed) (by computed) (by computed)
    (by computed) (by computed)

omit hg hb in
/-- A text with the names filled in, by computation. -/
macro "filled" hg:term:max hb:term:max t:term:max q:term:max n:term:max s:term:max : tactic =>
  `(tactic| exact make_of $hg $hb $t $q $n $s (by computed) (by computed) (by computed) (by computed) (by computed) (by computed) (by computed))

omit hg hb in
theorem wrap_two (p s d a b : List Char) : p ++ (a ++ (d ++ b)) ++ s = p ++ (a ++ (d ++ (b ++ s))) := by simp

omit hg hb in
theorem wrap_three (p s d a b c : List Char) : p ++ (a ++ (d ++ (b ++ (d ++ c)))) ++ s = p ++ (a ++ (d ++ (b ++ (d ++ (c ++ s))))) := by simp

theorem make_path (debug : Bool) {a b : Text} {A : Green} (h : Lead a A) (hb' : NewName b) {c : Option Text} (hc : ∀ x ∈ c, NewName x) :
    make (parser g debug) .PATH (exprText (fullText a b c)) = some (full A b c) := by
  have hs : Simple (exprText (fullText a b c)) := by
    unfold exprText
    exact (Simple.append (by decide) (fullText_simple h hb' c hc)).append (by decide)
  cases h with
  | name ha =>
    cases c with
    | none =>
      have e : exprText (fullText a b none) = "module 0x1::m { fun main() { let _ = ".toList ++ (a ++ ("::".toList ++ (b ++ " } }".toList))) := by
        exact wrap_two _ _ _ _ _
      rw [e] at hs ⊢
      have hn : ∀ x ∈ [(37, a), (40, b)], NewName x.2 := by simp [ha, hb']
      cases debug <;> filled hg hb (exprText "a::b".toList) [(37, a), (40, b)] hn hs
    | some c =>
      have e : exprText (fullText a b (some c)) = "module 0x1::m { fun main() { let _ = ".toList ++ (a ++ ("::".toList ++ (b ++ ("::".toList ++ (c ++ " } }".toList))))) := by
        exact wrap_three _ _ _ _ _ _
      rw [e] at hs ⊢
      have hn : ∀ x ∈ [(37, a), (40, b), (43, c)], NewName x.2 := by simp [ha, hb', hc c rfl]
      cases debug <;> filled hg hb (exprText "a::b::c".toList) [(37, a), (40, b), (43, c)] hn hs
  | one =>
    cases c with
    | none =>
      have e : exprText (fullText "0x1".toList b none) = "module 0x1::m { fun main() { let _ = ".toList ++ ("0x1".toList ++ ("::".toList ++ (b ++ " } }".toList))) := by
        exact wrap_two _ _ _ _ _
      rw [e] at hs ⊢
      have hn : ∀ x ∈ [(42, b)], NewName x.2 := by simp [hb']
      cases debug <;> filled hg hb (exprText "0x1::b".toList) [(42, b)] hn hs
    | some c =>
      have e : exprText (fullText "0x1".toList b (some c)) = "module 0x1::m { fun main() { let _ = ".toList ++ ("0x1".toList ++ ("::".toList ++ (b ++ ("::".toList ++ (c ++ " } }".toList))))) := by
        exact wrap_three _ _ _ _ _ _
      rw [e] at hs ⊢
      have hn : ∀ x ∈ [(42, b), (45, c)], NewName x.2 := by simp [hb', hc c rfl]
      cases debug <;> filled hg hb (exprText "0x1::b::c".toList) [(42, b), (45, c)] hn hs

/-- The use speck `a::b::{c, d}`. -/
def pairSpeck (A : Green) (b : Text) (c d : Text) : Green :=
  .node .USE_SPECK [pathTo A b, colons, .node .USE_GROUP [.tok .L_CURLY ['{'], .node .USE_SPECK [.node .PATH [nameSeg c]], .tok .COMMA [','],
    .tok .WHITESPACE [' '], .node .USE_SPECK [.node .PATH [nameSeg d]], .tok .R_CURLY ['}']]]

/-- Its text. -/
def pairText (a b c d : Text) : Text := a ++ ("::".toList ++ (b ++ ("::{".toList ++ (c ++ (", ".toList ++ (d ++ ['}']))))))

omit hg hb in
theorem pairSpeck_text {a b c d : Text} {A : Green} (h : Lead a A) : (pairSpeck A b c d).text = pairText a b c d := by
  have ht := h.text
  simp [pairSpeck, pairText, pathTo, colons, nameSeg, Green.text_node, Green.text_tok, ht]

omit hg hb in
theorem pairText_simple {a b c d : Text} {A : Green} (h : Lead a A) (hb' : NewName b) (hc : Simple c) (hd : Simple d) :
    Simple (pairText a b c d) :=
  h.simple.append (Simple.append (by decide) (hb'.simple.append (Simple.append (by decide) (hc.append (Simple.append (by decide)
    (hd.append (by decide)))))))

omit hg hb in
theorem wrap_pair (p s d a b o c k e q u : List Char) : p ++ (u ++ (a ++ (d ++ (b ++ (o ++ (c ++ (k ++ (e ++ q)))))))) ++ s =
    p ++ (u ++ (a ++ (d ++ (b ++ (o ++ (c ++ (k ++ (e ++ (q ++ s))))))))) := by simp

theorem make_pair (debug : Bool) {a b c d : Text} {A : Green} (h : Lead a A) (hb' : NewName b) (hc : NewName c) (hd : NewName d) :
    make (parser g debug) .USE_SPECK (itemText ("use ".toList ++ pairText a b c d)) = some (pairSpeck A b c d) := by
  have hs : Simple (itemText ("use ".toList ++ pairText a b c d)) := by
    unfold itemText
    exact (Simple.append (by decide) (Simple.append (by decide) (pairText_simple h hb' hc.simple hd.simple))).append (by decide)
  have e : itemText ("use ".toList ++ pairText a b c d) = "module 0x1::m { ".toList ++ ("use ".toList ++ (a ++ ("::".toList ++ (b ++
      ("::{".toList ++ (c ++ (", ".toList ++ (d ++ (['}'] ++ " }".toList))))))))) := wrap_pair _ _ _ _ _ _ _ _ _ _ _
  rw [e] at hs ⊢
  cases h with
  | name ha =>
    have hn : ∀ x ∈ [(20, a), (23, b), (27, c), (30, d)], NewName x.2 := by simp [ha, hb', hc, hd]
    cases debug <;> filled hg hb (itemText "use a::b::{c, d}".toList) [(20, a), (23, b), (27, c), (30, d)] hn hs
  | one =>
    have hn : ∀ x ∈ [(25, b), (29, c), (32, d)], NewName x.2 := by simp [hb', hc, hd]
    cases debug <;> filled hg hb (itemText "use 0x1::b::{c, d}".toList) [(25, b), (29, c), (32, d)] hn hs

theorem make_self (debug : Bool) {a b d : Text} {A : Green} (h : Lead a A) (hb' : NewName b) (hd : NewName d) :
    make (parser g debug) .USE_SPECK (itemText ("use ".toList ++ pairText a b "Self".toList d)) = some (pairSpeck A b "Self".toList d) := by
  have hs : Simple (itemText ("use ".toList ++ pairText a b "Self".toList d)) := by
    unfold itemText
    exact (Simple.append (by decide) (Simple.append (by decide) (pairText_simple h hb' (by decide) hd.simple))).append (by decide)
  have e : itemText ("use ".toList ++ pairText a b "Self".toList d) = "module 0x1::m { ".toList ++ ("use ".toList ++ (a ++ ("::".toList ++ (b ++
      ("::{".toList ++ ("Self".toList ++ (", ".toList ++ (d ++ (['}'] ++ " }".toList))))))))) := wrap_pair _ _ _ _ _ _ _ _ _ _ _
  rw [e] at hs ⊢
  cases h with
  | name ha =>
    have hn : ∀ x ∈ [(20, a), (23, b), (33, d)], NewName x.2 := by simp [ha, hb', hd]
    cases debug <;> filled hg hb (itemText "use a::b::{Self, d}".toList) [(20, a), (23, b), (33, d)] hn hs
  | one =>
    have hn : ∀ x ∈ [(25, b), (35, d)], NewName x.2 := by simp [hb', hd]
    cases debug <;> filled hg hb (itemText "use 0x1::b::{Self, d}".toList) [(25, b), (35, d)] hn hs

theorem make_with_self (debug : Bool) {a b c : Text} {A : Green} (h : Lead a A) (hb' : NewName b) (hc : NewName c) :
    make (parser g debug) .USE_SPECK (itemText ("use ".toList ++ pairText a b c "Self".toList)) = some (pairSpeck A b c "Self".toList) := by
  have hs : Simple (itemText ("use ".toList ++ pairText a b c "Self".toList)) := by
    unfold itemText
    exact (Simple.append (by decide) (Simple.append (by decide) (pairText_simple h hb' hc.simple (by decide)))).append (by decide)
  have e : itemText ("use ".toList ++ pairText a b c "Self".toList) = "module 0x1::m { ".toList ++ ("use ".toList ++ (a ++ ("::".toList ++ (b ++
      ("::{".toList ++ (c ++ (", ".toList ++ ("Self".toList ++ (['}'] ++ " }".toList))))))))) := wrap_pair _ _ _ _ _ _ _ _ _ _ _
  rw [e] at hs ⊢
  cases h with
  | name ha =>
    have hn : ∀ x ∈ [(20, a), (23, b), (27, c)], NewName x.2 := by simp [ha, hb', hc]
    cases debug <;> filled hg hb (itemText "use a::b::{c, Self}".toList) [(20, a), (23, b), (27, c)] hn hs
  | one =>
    have hn : ∀ x ∈ [(25, b), (29, c)], NewName x.2 := by simp [hb', hc]
    cases debug <;> filled hg hb (itemText "use 0x1::b::{c, Self}".toList) [(25, b), (29, c)] hn hs

omit hg hb in
theorem wrapu_two (p s d a b u : List Char) : p ++ (u ++ (a ++ (d ++ b))) ++ s = p ++ (u ++ (a ++ (d ++ (b ++ s)))) := by simp

omit hg hb in
theorem wrapu_three (p s d a b c u : List Char) :
    p ++ (u ++ (a ++ (d ++ (b ++ (d ++ c))))) ++ s = p ++ (u ++ (a ++ (d ++ (b ++ (d ++ (c ++ s)))))) := by simp

theorem make_speck (debug : Bool) {a b : Text} {A : Green} (h : Lead a A) (hb' : NewName b) {c : Option Text} (hc : ∀ x ∈ c, NewName x) :
    make (parser g debug) .USE_SPECK (itemText ("use ".toList ++ (fullText a b c))) = some (.node .USE_SPECK [full A b c]) := by
  have hs : Simple (itemText ("use ".toList ++ (fullText a b c))) := by
    unfold itemText
    exact (Simple.append (by decide) (Simple.append (by decide) (fullText_simple h hb' c hc))).append (by decide)
  cases h with
  | name ha =>
    cases c with
    | none =>
      have e : itemText ("use ".toList ++ (fullText a b none)) = "module 0x1::m { ".toList ++ ("use ".toList ++ (a ++ ("::".toList ++ (b ++ " }".toList)))) :=
        wrapu_two _ _ _ _ _ _
      rw [e] at hs ⊢
      have hn : ∀ x ∈ [(20, a), (23, b)], NewName x.2 := by simp [ha, hb']
      cases debug <;> filled hg hb (itemText "use a::b".toList) [(20, a), (23, b)] hn hs
    | some c =>
      have e : itemText ("use ".toList ++ (fullText a b (some c))) = "module 0x1::m { ".toList ++ ("use ".toList ++ (a ++ ("::".toList ++ (b ++ ("::".toList ++ (c ++ " }".toList)))))) :=
        wrapu_three _ _ _ _ _ _ _
      rw [e] at hs ⊢
      have hn : ∀ x ∈ [(20, a), (23, b), (26, c)], NewName x.2 := by simp [ha, hb', hc c rfl]
      cases debug <;> filled hg hb (itemText "use a::b::c".toList) [(20, a), (23, b), (26, c)] hn hs
  | one =>
    cases c with
    | none =>
      have e : itemText ("use ".toList ++ (fullText "0x1".toList b none)) = "module 0x1::m { ".toList ++ ("use ".toList ++ ("0x1".toList ++ ("::".toList ++ (b ++ " }".toList)))) :=
        wrapu_two _ _ _ _ _ _
      rw [e] at hs ⊢
      have hn : ∀ x ∈ [(25, b)], NewName x.2 := by simp [hb']
      cases debug <;> filled hg hb (itemText "use 0x1::b".toList) [(25, b)] hn hs
    | some c =>
      have e : itemText ("use ".toList ++ (fullText "0x1".toList b (some c))) = "module 0x1::m { ".toList ++ ("use ".toList ++ ("0x1".toList ++ ("::".toList ++ (b ++ ("::".toList ++ (c ++ " }".toList)))))) :=
        wrapu_three _ _ _ _ _ _ _
      rw [e] at hs ⊢
      have hn : ∀ x ∈ [(25, b), (28, c)], NewName x.2 := by simp [hb', hc c rfl]
      cases debug <;> filled hg hb (itemText "use 0x1::b::c".toList) [(25, b), (28, c)] hn hs

omit hg hb in
theorem wraps_two (p s d a b u t e : List Char) :
    p ++ (t ++ u ++ (a ++ (d ++ b)) ++ e) ++ s = p ++ (t ++ (u ++ (a ++ (d ++ (b ++ (e ++ s)))))) := by simp

omit hg hb in
theorem wraps_three (p s d a b c u t e : List Char) :
    p ++ (t ++ u ++ (a ++ (d ++ (b ++ (d ++ c)))) ++ e) ++ s = p ++ (t ++ (u ++ (a ++ (d ++ (b ++ (d ++ (c ++ (e ++ s)))))))) := by simp

theorem make_stmt (debug : Bool) {a b : Text} {A : Green} (h : Lead a A) (hb' : NewName b) {c : Option Text} (hc : ∀ x ∈ c, NewName x) :
    make (parser g debug) .USE_STMT (itemText ([] ++ "use ".toList ++ (fullText a b c) ++ [';'])) = some (stmtTree none (full A b c)) := by
  have hs : Simple (itemText ([] ++ "use ".toList ++ (fullText a b c) ++ [';'])) := by
    unfold itemText
    exact (Simple.append (by decide) (Simple.append (Simple.append (Simple.append (by decide) (by decide)) (fullText_simple h hb' c hc)) (by decide))).append (by decide)
  cases h with
  | name ha =>
    cases c with
    | none =>
      have e : itemText ([] ++ "use ".toList ++ (fullText a b none) ++ [';']) = "module 0x1::m { ".toList ++ ([] ++ ("use ".toList ++ (a ++ ("::".toList ++ (b ++ ([';'] ++ " }".toList)))))) :=
        wraps_two _ _ _ _ _ _ _ _
      rw [e] at hs ⊢
      have hn : ∀ x ∈ [(20, a), (23, b)], NewName x.2 := by simp [ha, hb']
      cases debug <;> filled hg hb (itemText "use a::b;".toList) [(20, a), (23, b)] hn hs
    | some c =>
      have e : itemText ([] ++ "use ".toList ++ (fullText a b (some c)) ++ [';']) = "module 0x1::m { ".toList ++ ([] ++ ("use ".toList ++ (a ++ ("::".toList ++ (b ++ ("::".toList ++ (c ++ ([';'] ++ " }".toList)))))))) :=
        wraps_three _ _ _ _ _ _ _ _ _
      rw [e] at hs ⊢
      have hn : ∀ x ∈ [(20, a), (23, b), (26, c)], NewName x.2 := by simp [ha, hb', hc c rfl]
      cases debug <;> filled hg hb (itemText "use a::b::c;".toList) [(20, a), (23, b), (26, c)] hn hs
  | one =>
    cases c with
    | none =>
      have e : itemText ([] ++ "use ".toList ++ (fullText "0x1".toList b none) ++ [';']) = "module 0x1::m { ".toList ++ ([] ++ ("use ".toList ++ ("0x1".toList ++ ("::".toList ++ (b ++ ([';'] ++ " }".toList)))))) :=
        wraps_two _ _ _ _ _ _ _ _
      rw [e] at hs ⊢
      have hn : ∀ x ∈ [(25, b)], NewName x.2 := by simp [hb']
      cases debug <;> filled hg hb (itemText "use 0x1::b;".toList) [(25, b)] hn hs
    | some c =>
      have e : itemText ([] ++ "use ".toList ++ (fullText "0x1".toList b (some c)) ++ [';']) = "module 0x1::m { ".toList ++ ([] ++ ("use ".toList ++ ("0x1".toList ++ ("::".toList ++ (b ++ ("::".toList ++ (c ++ ([';'] ++ " }".toList)))))))) :=
        wraps_three _ _ _ _ _ _ _ _ _
      rw [e] at hs ⊢
      have hn : ∀ x ∈ [(25, b), (28, c)], NewName x.2 := by simp [hb', hc c rfl]
      cases debug <;> filled hg hb (itemText "use 0x1::b::c;".toList) [(25, b), (28, c)] hn hs

theorem make_test_stmt (debug : Bool) {a b : Text} {A : Green} (h : Lead a A) (hb' : NewName b) {c : Option Text} (hc : ∀ x ∈ c, NewName x) :
    make (parser g debug) .USE_STMT (itemText ("#[test_only]\n".toList ++ "use ".toList ++ (fullText a b c) ++ [';'])) = some (stmtTree (some []) (full A b c)) := by
  have hs : Simple (itemText ("#[test_only]\n".toList ++ "use ".toList ++ (fullText a b c) ++ [';'])) := by
    unfold itemText
    exact (Simple.append (by decide) (Simple.append (Simple.append (Simple.append (by decide) (by decide)) (fullText_simple h hb' c hc)) (by decide))).append (by decide)
  cases h with
  | name ha =>
    cases c with
    | none =>
      have e : itemText ("#[test_only]\n".toList ++ "use ".toList ++ (fullText a b none) ++ [';']) = "module 0x1::m { ".toList ++ ("#[test_only]\n".toList ++ ("use ".toList ++ (a ++ ("::".toList ++ (b ++ ([';'] ++ " }".toList)))))) :=
        wraps_two _ _ _ _ _ _ _ _
      rw [e] at hs ⊢
      have hn : ∀ x ∈ [(33, a), (36, b)], NewName x.2 := by simp [ha, hb']
      cases debug <;> filled hg hb (itemText "#[test_only]\nuse a::b;".toList) [(33, a), (36, b)] hn hs
    | some c =>
      have e : itemText ("#[test_only]\n".toList ++ "use ".toList ++ (fullText a b (some c)) ++ [';']) = "module 0x1::m { ".toList ++ ("#[test_only]\n".toList ++ ("use ".toList ++ (a ++ ("::".toList ++ (b ++ ("::".toList ++ (c ++ ([';'] ++ " }".toList)))))))) :=
        wraps_three _ _ _ _ _ _ _ _ _
      rw [e] at hs ⊢
      have hn : ∀ x ∈ [(33, a), (36, b), (39, c)], NewName x.2 := by simp [ha, hb', hc c rfl]
      cases debug <;> filled hg hb (itemText "#[test_only]\nuse a::b::c;".toList) [(33, a), (36, b), (39, c)] hn hs
  | one =>
    cases c with
    | none =>
      have e : itemText ("#[test_only]\n".toList ++ "use ".toList ++ (fullText "0x1".toList b none) ++ [';']) = "module 0x1::m { ".toList ++ ("#[test_only]\n".toList ++ ("use ".toList ++ ("0x1".toList ++ ("::".toList ++ (b ++ ([';'] ++ " }".toList)))))) :=
        wraps_two _ _ _ _ _ _ _ _
      rw [e] at hs ⊢
      have hn : ∀ x ∈ [(38, b)], NewName x.2 := by simp [hb']
      cases debug <;> filled hg hb (itemText "#[test_only]\nuse 0x1::b;".toList) [(38, b)] hn hs
    | some c =>
      have e : itemText ("#[test_only]\n".toList ++ "use ".toList ++ (fullText "0x1".toList b (some c)) ++ [';']) = "module 0x1::m { ".toList ++ ("#[test_only]\n".toList ++ ("use ".toList ++ ("0x1".toList ++ ("::".toList ++ (b ++ ("::".toList ++ (c ++ ([';'] ++ " }".toList)))))))) :=
        wraps_three _ _ _ _ _ _ _ _ _
      rw [e] at hs ⊢
      have hn : ∀ x ∈ [(38, b), (41, c)], NewName x.2 := by simp [hb', hc c rfl]
      cases debug <;> filled hg hb (itemText "#[test_only]\nuse 0x1::b::c;".toList) [(38, b), (41, c)] hn hs

theorem parser_simple (debug : Bool) {text : Text} (h : Simple text) : parser g debug text = parser oneChar debug text := by
  unfold parser
  rw [parseText_simple hg hb debug 300 h]

theorem address_one (debug : Bool) : addressSegment (parser g debug) "0x1".toList = some (valueSeg "0x1".toList) := by
  have hs : Simple (addressText "0x1".toList) := by decide
  unfold addressSegment make
  rw [parser_simple hg hb debug hs]
  cases debug <;> computed

theorem testAttr_eq (debug : Bool) : testAttr (parser g debug) = some "#[test_only]\n".toList := by
  have hs : Simple "#[test_only]module 0x1::m {}".toList := by decide
  unfold testAttr make
  rw [parser_simple hg hb debug hs]
  cases debug <;> computed

omit hg hb in
theorem no_prefix {a : Text} (h : NewName a) : ['0', 'x'].isPrefixOf a = false := by
  obtain ⟨c, cs, rfl, h1, -⟩ := h.name
  have : c ≠ '0' := by
    rintro rfl
    rcases h1 with h1 | h1
    · exact absurd h1 (by decide)
    · exact absurd h1 (by decide)
  have h2 : ('0' == c) = false := beq_eq_false_iff_ne.2 (Ne.symm this)
  unfold List.isPrefixOf
  rw [h2]
  rfl

theorem segment_name (debug : Bool) {a : Text} (h : NewName a) : segment (parser g debug) a = some (nameSeg a) := by
  unfold segment
  rw [no_prefix h]
  exact make_name hg hb debug h

theorem segment_lead (debug : Bool) {a : Text} {A : Green} (h : Lead a A) : segment (parser g debug) a = some A := by
  cases h with
  | name h => exact segment_name hg hb debug h
  | one => exact address_one hg hb debug

omit hg hb in
theorem nameSeg_text (a : Text) : (nameSeg a).text = a := by simp [nameSeg, Green.text_node, Green.text_tok]

omit hg hb in
theorem joinPath_full (a b : Text) (c : Option Text) : joinPath (a :: b :: c.toList) = fullText a b c := by
  cases c <;> simp [joinPath, fullText]

/-- The path for a full name. -/
theorem importPath_eq (debug : Bool) {a b : Text} {A : Green} (h : Lead a A) (hb' : NewName b) {c : Option Text} (hc : ∀ x ∈ c, NewName x) :
    importPath (parser g debug) (a :: b :: c.toList) = some (full A b c) := by
  have hseg : segments (parser g debug) (a :: b :: c.toList) = some (A :: nameSeg b :: (c.map nameSeg).toList) := by
    cases c with
    | none => simp [segments, segment_lead hg hb debug h, segment_name hg hb debug hb']
    | some c => simp [segments, segment_lead hg hb debug h, segment_name hg hb debug hb', segment_name hg hb debug (hc c rfl)]
  unfold importPath
  rw [hseg, Option.bind_some]
  have e : (A :: nameSeg b :: (c.map nameSeg).toList).map Green.text = a :: b :: c.toList := by
    cases c <;> simp [h.text, nameSeg_text]
  rw [e]
  unfold pathOf
  rw [joinPath_full]
  exact make_path hg hb debug h hb' hc

/-- The name that an import with an item ends with. -/
def itemRef (c : Text) : Green := .node .NAME_REF [.tok .IDENT c]

omit hg hb in
theorem segmentTexts_eq {a b : Text} {A : Green} (h : Lead a A) (n : Nat) :
    segmentTexts (n + 2) (Elem.root (pathTo A b)) = [a, b] := by
  have e : segmentTexts (n + 2) (Elem.root (pathTo A b)) = [A.text, (nameSeg b).text] := by
    cases h with
    | name h => computed
    | one => computed
  rw [e, h.text, nameSeg_text]

omit hg hb in
theorem Lead.length {a b : Text} {A : Green} (h : Lead a A) : ∃ n, (pathTo A b).text.length = n + 2 := by
  refine ⟨(pathTo A b).text.length - 2, ?_⟩
  have := congrArg List.length (full_text (b := b) h none)
  simp only [full, fullText, List.length_append] at this
  have h2 : "::".toList.length = 2 := rfl
  omega

theorem newSpeck_eq (debug : Bool) {a b : Text} {A : Green} (h : Lead a A) (hb' : NewName b) {c : Option Text} (hc : ∀ x ∈ c, NewName x) :
    newSpeck (parser g debug) (pathTo A b) (c.map itemRef) = some (.node .USE_SPECK [full A b c]) := by
  cases c with
  | none =>
    simp only [newSpeck, Option.map_none, Option.bind_some]
    rw [show (pathTo A b).text = fullText a b none from full_text h none]
    exact make_speck hg hb debug h hb' hc
  | some c =>
    obtain ⟨n, hn⟩ := h.length (b := b)
    have ht : (itemRef c).text = c := by simp [itemRef, Green.text_node, Green.text_tok]
    simp only [newSpeck, Option.map_some]
    rw [ht, make_name hg hb debug (hc c rfl), Option.bind_some, hn, segmentTexts_eq h n, nameSeg_text]
    unfold pathOf
    rw [show joinPath ([a, b] ++ [c]) = fullText a b (some c) from joinPath_full a b (some c), make_path hg hb debug h hb' hc, Option.bind_some,
      full_text h (some c)]
    exact make_speck hg hb debug h hb' hc

theorem newStmt_eq (debug : Bool) {a b : Text} {A : Green} (h : Lead a A) (hb' : NewName b) {c : Option Text} (hc : ∀ x ∈ c, NewName x)
    (test : Bool) (ind : Text) :
    newStmt (parser g debug) (pathTo A b) (c.map itemRef) test ind = some (stmtTree (if test then some ind else none) (full A b c)) := by
  have ht : (Green.node .USE_SPECK [full A b c]).text = fullText a b c := by simp [Green.text_node, full_text h c]
  unfold newStmt
  rw [newSpeck_eq hg hb debug h hb' hc, Option.bind_some, ht]
  cases test with
  | false =>
    simp only [Bool.false_eq_true, if_false, Option.bind_some]
    rw [make_stmt hg hb debug h hb' hc]
    cases h <;> cases c <;> computed
  | true =>
    simp only [if_true]
    rw [testAttr_eq hg hb debug, Option.bind_some, make_test_stmt hg hb debug h hb' hc]
    cases h <;> cases c <;> computed

end
end Verif.Nameres.AutoImport
