import Verif.Ide.AutoImportProps
import Verif.Ide.ResolveExamples
import Verif.Ide.OrganizeExamples
import Verif.Parser.Failures

/-! C69: examples, and where "Add import" does harm. -/

namespace Verif.Nameres.AutoImport
open Verif.Parser (Green NewName oneChar_breaks oneChar_graphemes)
open Verif.Syntax Verif.Editor
open Verif.Lexer (oneChar)
open Verif.Ide (nodeIn twoFiles noWalk sane_two)
open Verif.Ide.Usages (parseOf)
open Verif.Nameres.Full (Is Sane)

/-- The file of the name and a file of another module. -/
def world (a b : Text) : Names := twoFiles a b noWalk

def P : Text → Option Green := parser oneChar false

/-- The fixes for the nth path of the file, with the file that each of them leads to; nothing stands for a panic. -/
def outcomes (a b : Text) (n : Nat) : Option (List (List Text × Option Text)) :=
  (fixes P (world a b) 0 (nodeIn a .PATH n)).map fun l => l.map fun x => (x.1, match x.2 with
    | .edit cs => match finish (parseOf a).1 cs with
      | .done g => some g.text
      | _ => none
    | _ => none)

def callText : Text := "module 0x1::m {\n    fun main() { f(); }\n}".toList
def testText : Text := "module 0x1::m {\n    #[test] fun main() { f(); }\n}".toList
def usedText : Text := "module 0x1::m {\n    use std::n;\n    fun main() { f(); }\n}".toList
def groupText' : Text := "module 0x1::m{use std::n::{a as b, /*c*/ d};fun main(){f();}}".toList
def publicText : Text := "module std::n{public fun f(){}}".toList
def privateText : Text := "module std::n{fun f(){}}".toList
def decimalText : Text := "module 1::n{public fun f(){}}".toList
def wordText : Text := "module std::copy{public fun f(){}}".toList

example : outcomes callText publicText 0 = some [(["std".toList, ['n'], ['f']],
    some "module 0x1::m {\n    use std::n::f;\n\n    fun main() { f(); }\n}".toList)] := by decide +kernel
example : outcomes testText publicText 1 = some [(["std".toList, ['n'], ['f']],
    some "module 0x1::m {\n    #[test_only]\n    use std::n::f;\n\n    #[test] fun main() { f(); }\n}".toList)] := by decide +kernel
example : outcomes usedText publicText 2 = some [(["std".toList, ['n'], ['f']],
    some "module 0x1::m {\n    use std::n::{Self, f};\n    fun main() { f(); }\n}".toList)] := by decide +kernel

/-- When the address of the module is written as a decimal number, working out the fix panics. -/
theorem C69_decimal_fails : (parseOf callText).2 = true ∧ (parseOf decimalText).2 = true ∧
    fixes P (world callText decimalText) 0 (nodeIn callText .PATH 0) = some [([['1'], ['n'], ['f']], .panic)] :=
  ⟨by decide +kernel, by decide +kernel, by computed⟩

/-- So it does when a word of the grammar, here `copy`, is the name of the module. -/
theorem C69_word_fails : (parseOf callText).2 = true ∧ (parseOf wordText).2 = true ∧
    fixes P (world callText wordText) 0 (nodeIn callText .PATH 0) = some [(["std".toList, "copy".toList, ['f']], .panic)] :=
  ⟨by decide +kernel, by decide +kernel, by computed⟩

/-- A function that may not be used there is offered too. -/
theorem C69_private_fails : (parseOf callText).2 = true ∧ (parseOf privateText).2 = true ∧
    outcomes callText privateText 0 = some [(["std".toList, ['n'], ['f']],
      some "module 0x1::m {\n    use std::n::f;\n\n    fun main() { f(); }\n}".toList)] ∧
    resolvePath (world "module 0x1::m {\n    use std::n::f;\n\n    fun main() { f(); }\n}".toList privateText) 3 0 none
      (nodeIn "module 0x1::m {\n    use std::n::f;\n\n    fun main() { f(); }\n}".toList .PATH 0) =
        [(⟨['f'], .FUNCTION, 1, [6, 0]⟩, some (.priv .Private))] := by
  decide +kernel

/-- The comments in a group are lost. -/
theorem C69_comment_fails : (parseOf groupText').2 = true ∧ (parseOf publicText).2 = true ∧
    outcomes groupText' publicText 4 = some [(["std".toList, ['n'], ['f']],
      some "module 0x1::m{use std::n::{a as b, d, f};fun main(){f();}}".toList)] := by
  decide +kernel

/-! ### Cases of the theorems -/

theorem newName_of {c : Char} {cs : List Char} (h : (Lexer.isLetter c || c == '_') = true)
    (hs : (cs.all fun d => Lexer.isLetter d || d == '_' || Lexer.isDigit d) = true)
    (hk : (Lexer.keywords.all fun p => decide (c :: cs ≠ p.2)) = true) (hw : (Parser.words.all fun w => decide (c :: cs ≠ w.toList)) = true) :
    NewName (c :: cs) := by
  refine ⟨⟨c, cs, rfl, by simpa using h, ?_⟩, ?_, ?_⟩
  · intro d hd
    simpa [or_assoc] using List.all_eq_true.1 hs d hd
  · intro k t hm
    exact of_decide_eq_true (List.all_eq_true.1 hk (k, t) hm)
  · intro w hm
    exact of_decide_eq_true (List.all_eq_true.1 hw w hm)

theorem new_std : NewName "std".toList := newName_of (c := 's') (cs := ['t', 'd']) (by decide) (by decide) (by decide +kernel) (by decide +kernel)
theorem new_n : NewName ['n'] := newName_of (by decide) (by decide) (by decide +kernel) (by decide +kernel)
theorem new_f : NewName ['f'] := newName_of (by decide) (by decide) (by decide +kernel) (by decide +kernel)

theorem world_sane {a b : Text} (ha : (parseOf a).1.kind = .SOURCE_FILE) (hb : (parseOf b).1.kind = .SOURCE_FILE) : Sane (world a b) :=
  sane_two ha hb _

theorem cons_of {l : List Elem} (h : l.length ≠ 0) : ∃ e r, l = e :: r := by
  cases l with
  | nil => exact absurd rfl h
  | cons e r => exact ⟨e, r, rfl⟩

/-- A name alone, in a file without named addresses of that name. -/
def simpleCheck (w : Names) (n : Text) : List Elem → Bool
  | [] => false
  | p :: anc => !anc.isEmpty && !anc.any (isNode .USE_GROUP) && (nodeChild p .PATH).isNone && (pathAddress p).isNone && decide (refName p = some n) &&
      decide (rootParentKind (p :: anc) ≠ some .USE_SPECK) && decide (rootParentKind (p :: anc) ≠ some .FRIEND) &&
      decide (rootParentKind (p :: anc) ≠ some .MODULE_SPEC) && !w.named n && (shorthandField (p :: anc)).isNone

theorem simple_of {w : Names} {n : Text} {site : List Elem} (h : simpleCheck w n site = true) :
    ∃ p anc, site = p :: anc ∧ SimpleName w p anc n := by
  cases site with
  | nil => cases h
  | cons p anc =>
    simp only [simpleCheck, Bool.and_eq_true, Bool.not_eq_true', decide_eq_true_eq, List.isEmpty_eq_false_iff, List.any_eq_false,
      Option.isNone_iff_eq_none, Full.isNode_iff] at h
    obtain ⟨⟨⟨⟨⟨⟨⟨⟨⟨h1, h2⟩, h3⟩, h4⟩, h5⟩, h6⟩, h7⟩, h8⟩, h9⟩, h10⟩ := h
    exact ⟨p, anc, rfl, h1, h2, h3, h4, h5, h6, h7, h8, (by rw [h9]; intro h; cases h), h10⟩

/-- One function is offered for the call. -/
example : ∃ p anc L, SimpleName (world callText publicText) p anc ['f'] ∧ offered (world callText publicText) 0 (p :: anc) = some L ∧ L.length = 1 ∧
    ∀ e, e ∈ L ↔ Candidate (world callText publicText) 0 ['f'] (pathNamespaces anc) e := by
  obtain ⟨p, anc, h1, h2⟩ := simple_of (w := world callText publicText) (n := ['f']) (site := nodeIn callText .PATH 0) (by decide +kernel)
  obtain ⟨L, hL, hn⟩ : ∃ L, offered (world callText publicText) 0 (nodeIn callText .PATH 0) = some L ∧ L.length = 1 :=
    ⟨[⟨['f'], .FUNCTION, 1, [6, 0]⟩], by decide +kernel, rfl⟩
  rw [h1] at hL
  exact ⟨p, anc, L, h2, hL, hn, fun e => C69_offered h2 hL e⟩

def manyText : Text := "module 0x1::a{fun f(){}}module 0x1::b{fun f(){}}module 0x1::c{fun f(){}}module 0x1::d{fun f(){}}".toList

/-- Of four functions none is offered. -/
example : ∃ p anc, SimpleName (world callText manyText) p anc ['f'] ∧ ∃ L : List Entry, L.Nodup ∧ L.length = 4 ∧
    ∀ e ∈ L, Candidate (world callText manyText) 0 ['f'] (pathNamespaces anc) e := by
  obtain ⟨p, anc, h1, h2⟩ := simple_of (w := world callText manyText) (n := ['f']) (site := nodeIn callText .PATH 0) (by decide +kernel)
  have h3 : offered (world callText manyText) 0 (nodeIn callText .PATH 0) = none := by decide +kernel
  rw [h1] at h3
  exact ⟨p, anc, h2, (C69_limit (world_sane (by decide +kernel) (by decide +kernel)) h2).1 h3⟩

/-- The title of the fix is the full name. -/
example : ∃ p anc F, SimpleName (world callText publicText) p anc ['f'] ∧ fixes P (world callText publicText) 0 (p :: anc) = some F ∧
    ∀ name, (∃ x, (name, x) ∈ F) ↔ ∃ e, Candidate (world callText publicText) 0 ['f'] (pathNamespaces anc) e ∧
      FullName (world callText publicText) 0 e name := by
  obtain ⟨p, anc, h1, h2⟩ := simple_of (w := world callText publicText) (n := ['f']) (site := nodeIn callText .PATH 0) (by decide +kernel)
  obtain ⟨F, hF⟩ : ∃ F, fixes P (world callText publicText) 0 (nodeIn callText .PATH 0) = some F := Option.isSome_iff_exists.1 (by decide +kernel)
  rw [h1] at hF
  exact ⟨p, anc, F, h2, hF, C69_titles (world_sane (by decide +kernel) (by decide +kernel)) h2 hF⟩

/-- Only one node has the kind and the range. -/
def onlyCheck (g : Green) : List Elem → Bool
  | [] => false
  | x :: _ => ((Ide.nodeChains [] [] 0 g).filter fun s => decide (Elem.ptr (Site.elem s) = Elem.ptr x)).length == 1

theorem only_of {g : Green} {x : Elem} {l : List Elem} (hc : Chain g (x :: l)) (ht : x.green.isTok = false) (h : onlyCheck g (x :: l) = true) :
    OnlyPtr g x l := by
  intro y m hy hyt he
  rw [onlyCheck, beq_iff_eq, List.length_eq_one_iff] at h
  obtain ⟨z, hz⟩ := h
  have h1 : (x :: l) ∈ [z] := by
    rw [← hz, List.mem_filter]
    exact ⟨Ide.Organize.nodes_all hc ht, decide_eq_true rfl⟩
  have h2 : (y :: m) ∈ [z] := by
    rw [← hz, List.mem_filter]
    exact ⟨Ide.Organize.nodes_all hy hyt, decide_eq_true he⟩
  rw [List.mem_singleton] at h1 h2
  rw [h1, h2]

/-- The name is in a test and the module is not. -/
example : ∃ p anc F l o r, fixes P (world testText publicText) 0 (p :: anc) = some F ∧ anc = l ++ o :: r ∧ Holds o ∧
    ∀ name x, (name, x) ∈ F → x = addImport P (parseOf testText).1 (o :: r) name true := by
  obtain ⟨p, anc, h1⟩ := cons_of (l := nodeIn testText .PATH 1) (by decide +kernel)
  obtain ⟨F, hF⟩ : ∃ F, fixes P (world testText publicText) 0 (nodeIn testText .PATH 1) = some F := Option.isSome_iff_exists.1 (by decide +kernel)
  rw [h1] at hF
  obtain ⟨l, o, r, h2, h3, h4, h5⟩ := C69_where_partial hF
  have hm : o :: r = nodeIn testText .MODULE 0 := by
    have : (nodeIn testText .PATH 1).tail.dropWhile (fun e => !holdsItems e) = nodeIn testText .MODULE 0 := by computed
    rw [h1, List.tail_cons, h2, List.dropWhile_append_of_pos (by
      intro e he
      have := h4 e he
      rw [← holds_iff] at this
      simpa using this), List.dropWhile_cons_of_neg (by simp [(holds_iff o).2 h3])] at this
    exact this
  have hc : Chain (parseOf testText).1 (p :: anc) := by
    rw [← h1]
    exact Ide.Organize.nodeIn_chain (Ide.Organize.ne_of_length (by decide +kernel))
  have hc' : Chain (parseOf testText).1 (o :: r) := by
    rw [hm]
    exact Ide.Organize.nodeIn_chain (Ide.Organize.ne_of_length (by decide +kernel))
  have ht : p.green.isTok = false := by
    have : (Site.elem (nodeIn testText .PATH 1)).green.isTok = false := by decide +kernel
    rwa [h1] at this
  have ht' : o.green.isTok = false := by
    have : (Site.elem (nodeIn testText .MODULE 0)).green.isTok = false := by decide +kernel
    rwa [← hm] at this
  have ho := only_of hc ht (by rw [← h1]; decide +kernel)
  have ho' := only_of hc' ht' (by rw [hm]; decide +kernel)
  obtain ⟨test, h6, h7⟩ := h5 hc ht ho ho'
  have h8 : Nearest (o :: r) .Main := (C42_nearest_partial _ _ _ hc' ht' ho' _).1 (by
    have : itemScope (parseOf testText).1 (Elem.ptr (Site.elem (nodeIn testText .MODULE 0))) = .Main := by decide +kernel
    rwa [← hm] at this)
  have h9 : Nearest (p :: anc) .Test := (C42_nearest_partial _ _ _ hc ht ho _).1 (by
    have : itemScope (parseOf testText).1 (Elem.ptr (Site.elem (nodeIn testText .PATH 1))) = .Test := by decide +kernel
    rwa [h1] at this)
  have : test = true := h6.2 ⟨h8, h9⟩
  subst this
  exact ⟨p, anc, F, l, o, r, hF, h2, h3, h7⟩

/-- The place of the items of the file. -/
def ownerCheck : List Elem → Bool
  | [] => false
  | o :: anc => holdsItems o && anc.all fun e => decide (e.kind = .SOURCE_FILE) || decide (e.kind = .ADDRESS_DEF)

theorem owner_of {g : Green} {o : Elem} {anc : List Elem} (hc : Chain g (o :: anc)) (h : ownerCheck (o :: anc) = true) : Owner g o anc := by
  rw [ownerCheck, Bool.and_eq_true] at h
  exact ⟨hc, h.1, fun e he => by simpa using List.all_eq_true.1 h.2 e he⟩

theorem brace_of {o : Elem} (h : (o.children.all fun e => !isNode .USE_STMT e) = true) (hb : (o.children.find? (isToken .L_CURLY)).isSome = true) :
    ∃ x, Anchor o x ∧ o.children.find? (isToken .L_CURLY) = some x := by
  obtain ⟨x, hx⟩ := Option.isSome_iff_exists.1 hb
  obtain ⟨h1, l, r, h2, h3⟩ := List.find?_eq_some_iff_append.1 hx
  refine ⟨x, .brace h2 ?_ h1 (fun y hy => by simpa using h3 y hy), hx⟩
  intro y hy hh
  have := List.all_eq_true.1 h y hy
  rw [(Full.isNode_iff _ _).2 hh] at this
  cases this

theorem no_imports {o : Elem} {m : Text} {test : Bool} (h : (o.children.all fun e => !isNode .USE_STMT e) = true) :
    ∀ s ∈ o.children, ¬ Imports m test s := by
  intro s hs hi
  have := List.all_eq_true.1 h s hs
  rw [(Full.isNode_iff _ _).2 hi.use] at this
  cases this

/-- A statement for `std::n::f` comes after the brace. -/
example : ∃ o anc cs new l r, addImport P (parseOf callText).1 (o :: anc) ["std".toList, ['n'], ['f']] false = .edit cs ∧
    finish (parseOf callText).1 cs = .done new ∧ (parseOf callText).1.leaves = l ++ r ∧ Lexer.blen (leafText l) = 15 ∧
    encode new.text = encode (leafText l ++
      ('\n' :: indentText (parseOf callText).1 o ++ stmtText (indentText (parseOf callText).1 o) false "std::n::f".toList ++ lineAfter r) ++ leafText r) := by
  obtain ⟨o, anc, h1⟩ := cons_of (l := nodeIn callText .MODULE 0) (by decide +kernel)
  have hc : Chain (parseOf callText).1 (o :: anc) := by
    rw [← h1]
    exact Ide.Organize.nodeIn_chain (Ide.Organize.ne_of_length (by decide +kernel))
  have hno : (o.children.all fun e => !isNode .USE_STMT e) = true := by
    have : ((Site.elem (nodeIn callText .MODULE 0)).children.all fun e => !isNode .USE_STMT e) = true := by decide +kernel
    rwa [h1] at this
  obtain ⟨x, hx, hx'⟩ := brace_of hno (by
    have : ((Site.elem (nodeIn callText .MODULE 0)).children.find? (isToken .L_CURLY)).isSome = true := by decide +kernel
    rwa [h1] at this)
  obtain ⟨cs, new, l, r, h2, h3, h4, h5, h6⟩ := C69_new_partial oneChar_graphemes oneChar_breaks false (tree := (parseOf callText).1) (.name new_std) new_n
    (c := some ['f']) (by intro y hy; cases hy; exact new_f) false (Ide.Organize.solid_of (by decide +kernel))
    (owner_of hc (by rw [← h1]; decide +kernel)) hx (no_imports hno)
  refine ⟨o, anc, cs, new, l, r, h2, h3, h4, ?_, h6⟩
  have hs : x.stop = 15 := by
    have : ((Site.elem (nodeIn callText .MODULE 0)).children.find? (isToken .L_CURLY)).map Elem.stop = some 15 := by decide +kernel
    rw [h1] at this
    change (o.children.find? (isToken .L_CURLY)).map Elem.stop = some 15 at this
    rw [hx'] at this
    exact Option.some.inj this
  rw [h5, hs]

/-- The line of the module starts with nothing. -/
example : ∃ o anc, nodeIn callText .MODULE 0 = o :: anc ∧ indentText (parseOf callText).1 o = "    ".toList := by
  obtain ⟨o, anc, h1⟩ := cons_of (l := nodeIn callText .MODULE 0) (by decide +kernel)
  have h2 : o.start = 0 := by
    have : (Site.elem (nodeIn callText .MODULE 0)).start = 0 := by decide +kernel
    rwa [h1] at this
  exact ⟨o, anc, h1, C69_indent (l := []) (r := (parseOf callText).1.leaves) (n := 0) (Ide.Organize.solid_of (by decide +kernel)) (by decide +kernel)
    rfl h2 (.first (by simp)) (by decide) (by decide +kernel)⟩

/-- A statement of one name. -/
def oneCheck (m c : Text) (test : Bool) (o : Elem) : Bool :=
  match (o.children.filter (isNode .USE_STMT)) with
  | [s] => !nameOnlyAttr "verify_only" s.green && (nameOnlyAttr "test_only" s.green == test) && match nodeChild s .USE_SPECK with
    | some r => (nodeChild r .USE_GROUP).isNone && (nodeChild r .USE_ALIAS).isNone && match nodeChild r .PATH with
      | some p => decide (p.green.text = m) && decide (c = "Self".toList) && match nodeChild p .PATH with
        | some q => (nodeChild q .PATH).isNone
        | none => false
      | none => false
    | none => false
  | _ => false

theorem one_of {m c : Text} {test : Bool} {o : Elem} (h : oneCheck m c test o = true) :
    ∃ s r p, LastImport o m test s ∧ Listed s r p [(c, none)] := by
  unfold oneCheck at h
  split at h
  · rename_i s hs
    have hmem : s ∈ o.children.filter (isNode .USE_STMT) := by rw [hs]; simp
    obtain ⟨hm, hk⟩ := List.mem_filter.1 hmem
    obtain ⟨l, r', hl⟩ := List.append_of_mem hm
    simp only [Bool.and_eq_true, Bool.not_eq_true', beq_iff_eq] at h
    obtain ⟨⟨h1, h2⟩, h⟩ := h
    split at h
    · rename_i r hr
      simp only [Bool.and_eq_true, Option.isNone_iff_eq_none] at h
      obtain ⟨⟨h3, h4⟩, h⟩ := h
      split at h
      · rename_i p hp
        simp only [Bool.and_eq_true, decide_eq_true_eq] at h
        obtain ⟨⟨h5, rfl⟩, h⟩ := h
        split at h
        · rename_i q hq
          rw [Option.isNone_iff_eq_none] at h
          refine ⟨s, r, p, ⟨⟨l, r', hl, ?_⟩, (Full.isNode_iff _ _).1 hk, ⟨p, .module hr hp h3 hq h, h5⟩, ?_, ?_⟩, .module hr hp h3 hq h (.none h4)⟩
          · intro y hy hi
            have : (o.children.filter (isNode .USE_STMT)).length = 1 := by rw [hs]; rfl
            rw [hl, List.filter_append, List.filter_cons_of_pos hk, List.length_append, List.length_cons] at this
            have h6 : r'.filter (isNode .USE_STMT) = [] := List.eq_nil_of_length_eq_zero (by omega)
            have h7 := List.mem_filter.2 ⟨hy, (Full.isNode_iff _ _).2 hi.use⟩
            rw [h6] at h7
            cases h7
          · rw [← marked_iff, h1]; simp
          · rw [← marked_iff, h2]
        · cases h
      · cases h
    · cases h
  · cases h

/-- `use std::n;` becomes `use std::n::{Self, f};`. -/
example : ∃ o anc cs new x y r, addImport P (parseOf usedText).1 (o :: anc) ["std".toList, ['n'], ['f']] false = .edit cs ∧
    finish (parseOf usedText).1 cs = .done new ∧ (parseOf usedText).1.leaves = x ++ r ++ y ∧
    encode new.text = encode (leafText x ++ "std::n::{Self, f}".toList ++ leafText y) := by
  obtain ⟨o, anc, h1⟩ := cons_of (l := nodeIn usedText .MODULE 0) (by decide +kernel)
  have hc : Chain (parseOf usedText).1 (o :: anc) := by
    rw [← h1]
    exact Ide.Organize.nodeIn_chain (Ide.Organize.ne_of_length (by decide +kernel))
  obtain ⟨s, r, p, hs, hl⟩ := one_of (m := fullText "std".toList ['n'] none) (c := "Self".toList) (test := false) (o := o) (by
    have : oneCheck (fullText "std".toList ['n'] none) "Self".toList false (Site.elem (nodeIn usedText .MODULE 0)) = true := by decide +kernel
    rwa [h1] at this)
  obtain ⟨cs, new, x, y, h2, h3, h4, -, h5⟩ := C69_pair_partial oneChar_graphemes oneChar_breaks false (tree := (parseOf usedText).1) (.name new_std) new_n
    (.item new_f) false (Ide.Organize.solid_of (by decide +kernel)) (owner_of hc (by rw [← h1]; decide +kernel)) hs hl
  exact ⟨o, anc, cs, new, x, y, r.green.leaves, h2, h3, h4, h5⟩

end Verif.Nameres.AutoImport
