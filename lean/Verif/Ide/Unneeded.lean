import Verif.Ide.VisFix
import Verif.Ide.RenameMore
import Verif.Ide.Docs

/-! C91: what is no longer needed is taken out: `acquires` of a function, and `::` in front of the type arguments of a method.

ide-diagnostics/src/handlers/unused_acquires.rs and simplify_turbofish.rs. -/

namespace Verif.Ide.Unneeded
open Verif Verif.Syntax
open Verif.TextEdit Verif.TextEdit.Spec Verif.TextEdit.TreeDiff
open Verif.Parser (Green Piece Lexes texts texts_cons texts_append Next AsciiBreaks)
open Verif.Lexer (Graphemes OneAhead NameEnds NameHeads IsName blen blen_append Ascii findToken)
open Verif.Ide.Usages (Parsed parseOf parseOf_parsed)
open Verif.Ide.Rename (apply_one apply_two)
open Verif.Ide.Counts (First nodeChild_iff)

/-! ### Model -/

/-- The token that is reported in a method call (`simplify_turbofish`, simplify_turbofish.rs:7–31). -/
def turbofish (e : Elem) : Option Elem := (nodeChild e .TYPE_ARG_LIST).bind fun l => tokenChild l .COLON_COLON

/-- `editor.delete`, as an edit of the text. -/
def delete (e : Elem) : Change := ⟨e.start, e.stop, encode []⟩

/-- `fixes` (simplify_turbofish.rs:33–49). -/
def turbofishFix (e : Elem) : List Change := match turbofish e with
  | some c => [delete c]
  | none => []

/-- `next_sibling_or_token()` of the first child that is a node of the kind, with that child. -/
def withNext (k : SyntaxKind) : List Elem → Option (Elem × Option Elem)
  | [] => none
  | c :: cs => if isNode k c then some (c, cs.head?) else withNext k cs

/-- The node that is reported in a function (`unused_acquires`, unused_acquires.rs:11–32). -/
def acquires (e : Elem) : Option Elem := nodeChild e .ACQUIRES

/-- `fixes` (unused_acquires.rs:34–57). -/
def acquiresFix (e : Elem) : List Change := match withNext .ACQUIRES e.children with
  | none => []
  | some (a, none) => [delete a]
  | some (a, some n) => if n.kind = .WHITESPACE then [delete a, delete n] else [delete a]

/-! ### Specification -/

/-- `sp` is the white space behind the child `a`, and nothing if there is none. -/
def SpaceBehind (e a : Elem) (sp : List Char) : Prop := ∃ pre post, e.children = pre ++ a :: post ∧
  ((∃ n rest, post = n :: rest ∧ n.kind = .WHITESPACE ∧ sp = n.green.text) ∨ (∀ n rest, post = n :: rest → n.kind ≠ .WHITESPACE) ∧ sp = [])

/-- The text is white space. (If a node could be of that kind, anything could be in it; the parser makes none.) -/
def Spaces (e : Elem) (sp : List Char) : Prop :=
  (∀ d ∈ sp, d = ' ' ∨ d = '\t' ∨ d = '\n') ∨ ∃ n ∈ e.children, n.green.isTok = false ∧ n.kind = .WHITESPACE

/-! ### Leaves -/

open Verif.Parser Verif.Lexer in
theorem leaf_fixed {ps ls : List Piece} (hf : ∀ p ∈ ps, Fine p) (h : Regroups ps ls) :
    ∀ x ∈ ls, (x.kind = .COLON_COLON → x.text = [':', ':']) ∧ (x.kind = .WHITESPACE → ∀ c ∈ x.text, c = ' ' ∨ c = '\t' ∨ c = '\n') := by
  intro x hx
  have key : ∀ t ∈ ps, (t.kind = .COLON_COLON → t.text = [':', ':']) ∧ (t.kind = .WHITESPACE → ∀ c ∈ t.text, c = ' ' ∨ c = '\t' ∨ c = '\n') := by
    intro t ht
    obtain ⟨rest, hd⟩ := (hf t ht).described
    exact ⟨fun hk => (hd.punct [':', ':'] (by rw [hk]; decide +kernel)).1, fun hk => (hd.space hk).1⟩
  rcases Verif.Syntax.leaf_group h x hx with ⟨h1, -⟩ | ⟨run, h1, h2, h3⟩
  · exact key x h1
  · generalize hkk : x.kind = k at h2
    cases h2 with
    | same t =>
      have e : x.text = t.text := by
        rw [h3]
        simp only [List.map_cons, List.map_nil, List.flatten_cons, List.flatten_nil, List.append_nil]
      rw [e]
      exact key t (h1 t (by simp))
    | operator k w run h4 =>
      have : ∀ y ∈ Verif.Parser.operators, y.1 ≠ .COLON_COLON ∧ y.1 ≠ .WHITESPACE := by decide
      exact ⟨fun e => absurd e (this _ h4).1, fun e => absurd e (this _ h4).2⟩
    | word k w t h4 =>
      have : ∀ y ∈ Verif.Parser.contextual, y.1 ≠ .COLON_COLON ∧ y.1 ≠ .WHITESPACE := by decide
      exact ⟨fun e => absurd e (this _ h4).1, fun e => absurd e (this _ h4).2⟩
    | name t ht => exact ⟨fun e => (nomatch e), fun e => (nomatch e)⟩
    | wildcard => exact ⟨fun e => (nomatch e), fun e => (nomatch e)⟩

theorem parsed_fixed {g : Green} (hp : Parsed g) {c : Elem} {l : List Elem} (hc : Chain g (c :: l)) (ht : c.green.isTok = true) :
    (c.kind = .COLON_COLON → c.green.text = [':', ':']) ∧
      (c.kind = .WHITESPACE → ∀ d ∈ c.green.text, d = ' ' ∨ d = '\t' ∨ d = '\n') := by
  obtain ⟨gr, debug, text, fuel, errs, h1, h2, h3, h4⟩ := hp
  rcases Verif.Parser.parseText_spec h1 h2 debug text h3 with ⟨h5, -⟩ | ⟨raw, ps, hr, hps, -, hfine, ⟨cs, e, h5, h6⟩ | ⟨w, h5, -⟩⟩
  · rw [h4] at h5; cases h5
  · rw [h4] at h5
    cases h5
    cases hg : c.green with
    | node k cs' => rw [hg] at ht; cases ht
    | tok k w =>
      have hk' : c.kind = k := by rw [Elem.kind, hg]; rfl
      have hm := Verif.Ide.Extend.chain_leaves hc ⟨k, w⟩ (by rw [hg]; simp [Green.leaves])
      rw [Green.leaves] at hm
      have := leaf_fixed hfine h6 ⟨k, w⟩ hm
      rw [hk']
      simpa [Green.text, Green.leaves] using this
  · rw [h4] at h5; cases h5

/-! ### Proofs -/

theorem tokenChild_mem {e c : Elem} {k : SyntaxKind} (h : tokenChild e k = some c) : c ∈ e.children ∧ c.green.isTok = true ∧ c.kind = k := by
  unfold tokenChild at h
  have h1 := List.mem_of_find?_eq_some h
  have h2 := List.find?_some h
  rw [isToken, Bool.and_eq_true, decide_eq_true_eq] at h2
  exact ⟨h1, h2⟩

/-- A method call is reported exactly if its type arguments begin with `::`; the fix takes out those two characters and nothing else. -/
theorem C91_turbofish {g : Green} (hp : Parsed g) {e : Elem} {up : List Elem} (hc : Chain g (e :: up)) :
    ((turbofish e).isSome = true ↔ ∃ l c, First [.TYPE_ARG_LIST] e l ∧ c ∈ l.children ∧ c.green.isTok = true ∧ c.kind = .COLON_COLON) ∧
    ∀ c, turbofish e = some c → ∃ l pre post, First [.TYPE_ARG_LIST] e l ∧ c ∈ l.children ∧ c.kind = .COLON_COLON ∧
      g.text = pre ++ [':', ':'] ++ post ∧ c.start = blen pre ∧ apply (turbofishFix e) (encode g.text) = some (encode (pre ++ post)) := by
  constructor
  · unfold turbofish
    rw [Option.isSome_iff_exists]
    constructor
    · rintro ⟨c, h⟩
      obtain ⟨l, h1, h2⟩ := Option.bind_eq_some_iff.1 h
      obtain ⟨h3, h4, h5⟩ := tokenChild_mem h2
      exact ⟨l, c, nodeChild_iff.1 h1, h3, h4, h5⟩
    · rintro ⟨l, c, h1, h2, h3, h4⟩
      rw [nodeChild_iff.2 h1, Option.bind_some]
      have : (tokenChild l .COLON_COLON).isSome = true := by
        unfold tokenChild
        rw [List.find?_isSome]
        exact ⟨c, h2, by simp [isToken, h3, h4]⟩
      exact Option.isSome_iff_exists.1 this
  · intro c h
    obtain ⟨l, h1, h2⟩ := Option.bind_eq_some_iff.1 h
    obtain ⟨h3, h4, h5⟩ := tokenChild_mem h2
    have h6 := (Nameres.Full.nodeChild_mem h1).1
    have hcc : Chain g (c :: l :: e :: up) := .child (.child hc h6) h3
    obtain ⟨pre, post, h7, h8⟩ := Extend.chain_text hcc
    have h9 := (parsed_fixed hp hcc h4).1 h5
    refine ⟨l, pre, post, nodeChild_iff.1 h1, h3, h5, by rw [h7, h9], h8, ?_⟩
    unfold turbofishFix
    rw [h]
    dsimp only
    have := apply_one (a := pre) (x := c.green.text) (b := post) (y := []) h8 (e := c.stop) (by
      rw [Elem.stop, h8, blen_append]; rfl)
    rw [h7]
    unfold delete
    simpa using this

theorem withNext_spec {k : SyntaxKind} {cs : List Elem} {a : Elem} {n : Option Elem} (h : withNext k cs = some (a, n)) :
    ∃ pre post, cs = pre ++ a :: post ∧ isNode k a = true ∧ (∀ x ∈ pre, isNode k x = false) ∧ n = post.head? := by
  induction cs with
  | nil => cases h
  | cons c cs ih =>
    unfold withNext at h
    split at h
    · rename_i hk
      cases h
      exact ⟨[], cs, rfl, hk, by simp, rfl⟩
    · rename_i hk
      obtain ⟨pre, post, h1, h2, h3, h4⟩ := ih h
      refine ⟨c :: pre, post, by rw [h1]; rfl, h2, ?_, h4⟩
      intro x hx
      rcases List.mem_cons.1 hx with rfl | hx
      · simpa using hk
      · exact h3 x hx

theorem withNext_some {k : SyntaxKind} {cs : List Elem} {a : Elem} (h : cs.find? (isNode k) = some a) : ∃ n, withNext k cs = some (a, n) := by
  induction cs with
  | nil => cases h
  | cons c cs ih =>
    rw [List.find?_cons] at h
    unfold withNext
    cases hk : isNode k c with
    | true => rw [hk] at h; cases h; exact ⟨cs.head?, by simp⟩
    | false => rw [hk] at h; simpa using ih h

theorem placed_next {path : List Nat} {i s : Nat} {gs : List Green} {pre post : List Elem} {a n : Elem}
    (h : placed path i s gs = pre ++ a :: n :: post) : n.start = a.stop := by
  induction gs generalizing i s pre with
  | nil => cases pre <;> cases h
  | cons g gs ih =>
    rw [placed] at h
    cases pre with
    | nil =>
      injection h with h1 h2
      cases gs with
      | nil => cases h2
      | cons g' gs =>
        rw [placed] at h2
        injection h2 with h2 h3
        rw [← h1, ← h2]
        rfl
    | cons x pre =>
      injection h with h1 h2
      exact ih h2

/-- In a function with `acquires` that and the white space behind it is taken out, and nothing else. -/
theorem C91_acquires {g : Green} (hp : Parsed g) {e : Elem} {up : List Elem} (hc : Chain g (e :: up)) :
    ((acquires e).isSome = true ↔ ∃ a, First [.ACQUIRES] e a) ∧
    ∀ a, acquires e = some a → ∃ sp pre post, First [.ACQUIRES] e a ∧ SpaceBehind e a sp ∧ Spaces e sp ∧
      g.text = pre ++ a.green.text ++ sp ++ post ∧ a.start = blen pre ∧ apply (acquiresFix e) (encode g.text) = some (encode (pre ++ post)) := by
  refine ⟨⟨fun h => ?_, ?_⟩, ?_⟩
  · obtain ⟨a, h⟩ := Option.isSome_iff_exists.1 h
    exact ⟨a, nodeChild_iff.1 h⟩
  · rintro ⟨a, h⟩
    unfold acquires
    rw [nodeChild_iff.2 h]
    rfl
  · intro a h
    obtain ⟨n, hn⟩ := withNext_some (cs := e.children) h
    obtain ⟨cpre, cpost, h1, h2, -, h4⟩ := withNext_spec hn
    have ha : Chain g (a :: e :: up) := .child hc (by rw [h1]; simp)
    obtain ⟨pre, post, h5, h6⟩ := Extend.chain_text ha
    have hstop : a.stop = blen (pre ++ a.green.text) := by rw [Elem.stop, h6, blen_append]; rfl
    have one : (∀ x rest, cpost = x :: rest → x.kind ≠ .WHITESPACE) → acquiresFix e = [delete a] →
        ∃ sp pre post, First [.ACQUIRES] e a ∧ SpaceBehind e a sp ∧ Spaces e sp ∧
        g.text = pre ++ a.green.text ++ sp ++ post ∧ a.start = blen pre ∧ apply (acquiresFix e) (encode g.text) = some (encode (pre ++ post)) := by
      intro hx hf
      refine ⟨[], pre, post, nodeChild_iff.1 h, ⟨cpre, cpost, h1, .inr ⟨hx, rfl⟩⟩, .inl (by simp), by simpa using h5, h6, ?_⟩
      have := apply_one (a := pre) (x := a.green.text) (b := post) (y := []) h6 hstop
      rw [hf, h5]
      unfold delete
      simpa using this
    cases cpost with
    | nil =>
      refine one (by simp) ?_
      unfold acquiresFix
      rw [hn, h4]
      rfl
    | cons x rest =>
      by_cases hw : x.kind = .WHITESPACE
      · have hx : Chain g (x :: e :: up) := .child hc (by rw [h1]; simp)
        have hnext : x.start = a.stop := placed_next h1
        obtain ⟨pre', post', h7, h8⟩ := Extend.chain_text hx
        have hsp : Spaces e x.green.text := by
          cases htok : x.green.isTok with
          | true => exact .inl ((parsed_fixed hp hx htok).2 hw)
          | false => exact .inr ⟨x, by rw [h1]; simp, htok, hw⟩
        have hcut : pre' = pre ++ a.green.text ∧ x.green.text ++ post' = post := by
          rw [h5, List.append_assoc] at h7
          have := Usages.append_eq_of_blen (a := pre ++ a.green.text) (b := post) (c := pre') (d := x.green.text ++ post') (by
            rw [← h5, ← List.append_assoc, ← h7]; simp [h5]) (by rw [← hstop, ← hnext, h8])
          exact ⟨this.1.symm, this.2.symm⟩
        obtain ⟨rfl, rfl⟩ := hcut
        refine ⟨x.green.text, pre, post', nodeChild_iff.1 h, ⟨cpre, x :: rest, h1, .inl ⟨x, rest, rfl, hw, rfl⟩⟩,
          hsp, by rw [h5]; simp, h6, ?_⟩
        have hf : acquiresFix e = [delete a, delete x] := by
          unfold acquiresFix
          rw [hn, h4]
          simp [hw]
        have := apply_two (a := pre) (x := a.green.text) (x' := x.green.text) (b := post') (y := []) (y' := []) h6 hstop (e := x.stop) (by
          rw [Elem.stop, h8, blen_append (pre ++ a.green.text)]; rfl)
        rw [hf, h5]
        unfold delete
        rw [hnext]
        simpa using this
      · refine one (fun y r hy => by cases hy; exact hw) ?_
        unfold acquiresFix
        rw [hn, h4]
        simp [hw]

/-- Tokens in front of a name are read as before if what follows still begins with a name. -/
theorem lexes_before {g : List Char → Nat} (ho : OneAhead g) {before x y : List Piece} (h : Lexes g (before ++ x)) (hy : Lexes g y)
    (heads : NameHeads (texts x) (texts y)) (hapart : before = [] ∨ Lexer.Apart (texts before))
    (hc : ∀ q ∈ before, q.kind = .COMMENT → ['/', '*'] <+: q.text → Ascii q.text) : Lexes g (before ++ y) := by
  induction before with
  | nil => exact hy
  | cons q before ih =>
    cases h with
    | cons _ _ t h1 h2 h3 h4 =>
      have hap : Lexer.Apart (q.text ++ texts before) := by
        rcases hapart with h | h
        · cases h
        · exact h
      have hrest : Lexes g (before ++ y) := by
        refine ih h4 ?_ (fun x hx => hc x (List.mem_cons_of_mem _ hx))
        cases before with
        | nil => exact .inl rfl
        | cons x xs =>
          refine .inr (hap.right ?_)
          cases h4 with
          | cons _ _ _ h5 => simp [h5]
      refine .cons _ _ t h1 ?_ h3 hrest
      have := Lexer.findToken_swap ho h1 hap heads (t := t)
        (fun e => hc q List.mem_cons_self (by subst e; exact (Option.some.inj h3).symm)) (by
          rw [List.append_assoc, ← texts_append]; exact h2)
      rw [List.append_assoc, ← texts_append] at this
      exact this

/-- Where `::` is between a name and `<`, without spaces, the lexer finds in the new text the tokens that are left. Missing: block comments
in front of it with characters that are not ASCII. -/
theorem C91_lexes_partial {g : List Char → Nat} (hg : Graphemes g) (hb : AsciiBreaks g) (ho : OneAhead g) {before after : List Piece}
    {n c l : Piece} (h : Lexes g (before ++ n :: c :: l :: after)) (hn : n.kind = .IDENT) (hl : l.kind = .L_ANGLE)
    (hapart : before = [] ∨ Lexer.Apart (texts before))
    (hc : ∀ q ∈ before, q.kind = .COMMENT → ['/', '*'] <+: q.text → Ascii q.text) : Lexes g (before ++ n :: l :: after) := by
  have hrest : Lexes g (l :: after) := by
    have := h.right
    cases this with
    | cons _ _ _ _ _ _ this => cases this with
      | cons _ _ _ _ _ _ this => exact this
  obtain ⟨hname, hkw, -⟩ := h.right.describes.ident hn
  have hlt : l.text = ['<'] := (hrest.describes.punct ['<'] (by rw [hl]; decide +kernel)).1
  have e : texts (l :: after) = '<' :: texts after := by rw [texts_cons, hlt]; rfl
  have hy : Lexes g (n :: l :: after) := by
    refine .cons _ _ _ ?_ (Parser.findToken_name hg hb hname ?_ ?_) (by rw [Parser.nameToken_ident hkw, hn]; rfl) hrest
    · obtain ⟨c, cs, e, -⟩ := hname
      simp [e]
    · intro d ds hd
      rw [e] at hd
      cases hd
      decide
    · intro d ds hd
      rw [e] at hd
      cases hd
      decide
  refine lexes_before ho h hy ?_ hapart hc
  obtain ⟨x, xs, e', h1, -⟩ := hname
  exact ⟨x, xs ++ texts (c :: l :: after), x, xs ++ texts (l :: after), by rw [texts_cons, e']; rfl, by rw [texts_cons, e']; rfl,
    (Parser.nameStart_iff x).2 h1, (Parser.nameStart_iff x).2 h1⟩

/-! ### Examples -/

/-- The nodes of the kind are in the file. -/
def has (text : List Char) (k : SyntaxKind) : Bool := !(Docs.ofKind text k).isEmpty

def called : List Char := "module 0x1::m{fun f()acquires S {x.g::<A>(y)}}".toList

/-- A function with `acquires` and a call with `::`, and what is left without them. -/
example : Parsed (parseOf called).1 ∧
    (∃ e up, Chain (parseOf called).1 (e :: up) ∧ (turbofish e).isSome = true ∧
      turbofishFix e = [⟨36, 38, []⟩]) ∧
    (∃ e up, Chain (parseOf called).1 (e :: up) ∧ (acquires e).isSome = true ∧ acquiresFix e = [⟨21, 31, []⟩, ⟨31, 32, []⟩]) ∧
    (parseOf "module 0x1::m{fun f(){x.g<A>(y)}}".toList).2 = true ∧ has "module 0x1::m{fun f(){x.g<A>(y)}}".toList .METHOD_CALL_EXPR = true := by
  refine ⟨parseOf_parsed (by decide +kernel) (by decide +kernel), ?_, ?_, by decide +kernel, by decide +kernel⟩
  · have h : (Docs.ofKind called .METHOD_CALL_EXPR).any (fun e => (turbofish e).isSome && decide (turbofishFix e = [⟨36, 38, []⟩])) = true := by
      decide +kernel
    obtain ⟨e, h1, h2⟩ := List.any_eq_true.1 h
    rw [Bool.and_eq_true, decide_eq_true_eq] at h2
    obtain ⟨⟨l, hl⟩, -⟩ := Docs.ofKind_chain h1
    exact ⟨e, l, hl, h2⟩
  · have h : (Docs.ofKind called .FUN).any (fun e => (acquires e).isSome && decide (acquiresFix e = [⟨21, 31, []⟩, ⟨31, 32, []⟩])) = true := by
      decide +kernel
    obtain ⟨e, h1, h2⟩ := List.any_eq_true.1 h
    rw [Bool.and_eq_true, decide_eq_true_eq] at h2
    obtain ⟨⟨l, hl⟩, -⟩ := Docs.ofKind_chain h1
    exact ⟨e, l, hl, h2⟩

/-- The hypotheses of `C91_lexes_partial` are met by `.g::<A>`. -/
example : Lexes Lexer.oneChar ([⟨.DOT, ['.']⟩] ++ ⟨.IDENT, ['g']⟩ :: ⟨.COLON_COLON, [':', ':']⟩ :: ⟨.L_ANGLE, ['<']⟩ ::
      [⟨.IDENT, ['A']⟩, ⟨.R_ANGLE, ['>']⟩]) ∧ Lexer.Apart (texts [⟨.DOT, ['.']⟩]) ∧
    Graphemes Lexer.oneChar ∧ AsciiBreaks Lexer.oneChar ∧ OneAhead Lexer.oneChar :=
  ⟨VisFix.lexes_cons (by decide +kernel) (VisFix.lexes_cons (by decide +kernel) (VisFix.lexes_cons (by decide +kernel)
    (VisFix.lexes_cons (by decide +kernel) (VisFix.lexes_cons (by decide +kernel) (VisFix.lexes_cons (by decide +kernel) .nil))))),
    ⟨[], '.', rfl, by decide, by decide⟩, Parser.oneChar_graphemes, Parser.oneChar_breaks, Parser.oneChar_ahead⟩

/-- With a space between the name of the method and `::`, what is left after the fix is a comparison, without any error. -/
theorem C91_space_fails : ∃ e up pre post, Chain (parseOf (pre ++ [':', ':'] ++ post)).1 (e :: up) ∧ e.kind = .METHOD_CALL_EXPR ∧
    turbofishFix e = [⟨blen pre, blen pre + 2, []⟩] ∧ (parseOf (pre ++ [':', ':'] ++ post)).2 = true ∧ (parseOf (pre ++ post)).2 = true ∧
    has (pre ++ [':', ':'] ++ post) .BIN_EXPR = false ∧ has (pre ++ post) .METHOD_CALL_EXPR = false ∧ has (pre ++ post) .BIN_EXPR = true := by
  have h : (Docs.ofKind ("module 0x1::m{fun f(){x.g ".toList ++ [':', ':'] ++ "<A>(y)}}".toList) .METHOD_CALL_EXPR).any (fun e =>
      decide (turbofishFix e = [⟨26, 28, []⟩])) = true := by decide +kernel
  obtain ⟨e, h1, h2⟩ := List.any_eq_true.1 h
  obtain ⟨⟨l, hl⟩, hk⟩ := Docs.ofKind_chain h1
  refine ⟨e, l, "module 0x1::m{fun f(){x.g ".toList, "<A>(y)}}".toList, hl, hk, ?_, by decide +kernel, by decide +kernel, by decide +kernel,
    by decide +kernel, by decide +kernel⟩
  rw [of_decide_eq_true h2]
  decide +kernel

end Verif.Ide.Unneeded
