import Verif.Ide.UsageScope

/-! C72: an example, and the pattern without its literal. -/

namespace Verif.Syntax
open Verif.Parser (parseText pieces Green)
open Verif.Lexer (oneChar tokenize)
open Verif.Ide.Usages (parseOf)

/-- The parts that are missing: the kinds and the places of the nodes. -/
def missing (g : Green) : List (SyntaxKind × List Nat) :=
  (Elem.root g).descendants.flatMap fun n => required.filterMap fun (k, p) =>
    if n.kind = k ∧ (p.find n).isNone then some (k, n.path) else none

/-- `-1::a` as a pattern. -/
def numberedText : List Char := "module 0x1::m{fun f(x:u8){match(x){-1::a=>1}}}".toList

/-- **C72 fails** for the literal of a pattern: in `match (x) { -1::a => 1 }` the minus and the path become a literal pattern without
a literal, and whoever asks for the literal panics. -/
theorem C72_literal_pat_fails : ∃ t errs, parseText oneChar false 300 numberedText = .tree t errs ∧
    missing t = [(.LITERAL_PAT, [1, 4, 1, 4, 6, 0])] := by
  have h : (match parseText oneChar false 300 numberedText with
    | .tree t _ => decide (missing t = [(.LITERAL_PAT, [1, 4, 1, 4, 6, 0])])
    | _ => false) = true := by decide +kernel
  revert h
  cases parseText oneChar false 300 numberedText with
  | tree t errs => exact fun h => ⟨t, errs, rfl, of_decide_eq_true h⟩
  | _ => intro h; cases h

/-- A check that there is no number before `::` and nothing wrong after `apply`. -/
def orderly : List Parser.Piece → Bool
  | [] => true
  | [x] => x.text != "apply".toList
  | x :: y :: l => !(decide (x.kind = .INT_NUMBER) && decide (y.kind = .COLON_COLON)) &&
      !(decide (x.text = "apply".toList) && decide (y.kind ∉ [SyntaxKind.IDENT, .UNDERSCORE, .INT_NUMBER])) && orderly (y :: l)

theorem orderly_at : ∀ {l : List Parser.Piece}, orderly l = true → ∀ i,
    (∀ x y, l[i]? = some x → l[i + 1]? = some y → ¬ (x.kind = .INT_NUMBER ∧ y.kind = .COLON_COLON)) ∧
    ∀ x, l[i]? = some x → x.text = "apply".toList →
      ¬ ∀ y, l[i + 1]? = some y → y.kind ∉ [SyntaxKind.IDENT, .UNDERSCORE, .INT_NUMBER]
  | [], _, i => by simp
  | [x], h, i => by
    refine ⟨fun a b _ hb => by simp at hb, fun a ha hx => ?_⟩
    cases i with
    | zero =>
      simp only [List.getElem?_cons_zero, Option.some.injEq] at ha
      subst ha
      rw [orderly, hx] at h
      simp at h
    | succ i => simp at ha
  | x :: y :: l, h, i => by
    rw [orderly, Bool.and_eq_true, Bool.and_eq_true] at h
    cases i with
    | zero =>
      refine ⟨fun a b ha hb hk => ?_, fun a ha hx hy => ?_⟩
      · simp only [List.getElem?_cons_zero, Option.some.injEq, List.getElem?_cons_succ] at ha hb
        subst ha; subst hb
        have := h.1.1
        rw [decide_eq_true hk.1, decide_eq_true hk.2] at this
        cases this
      · simp only [List.getElem?_cons_zero, Option.some.injEq] at ha
        subst ha
        have := h.1.2
        rw [decide_eq_true hx, decide_eq_true (hy y rfl)] at this
        cases this
    | succ i => exact orderly_at h.2 i

/-- An accessor of a chain of calls, a pattern with a path, a literal pattern and a label. -/
def fullText : List Char := "module a::m{fun f(x:u8){'l:loop{match(x){1=>a.b(c as u8).d,S{y}=>break 'l}}}}".toList

/-- The hypotheses of `C72_required_partial` and `C72_names` are met, of a text with nodes of nine of the kinds. -/
example : ∃ t errs raw ps, parseText oneChar false 300 fullText = .tree t errs ∧ tokenize oneChar 300 fullText = some (some raw) ∧
    pieces fullText raw = some ps ∧ 2 * fullText.length + 2 ≤ 300 ∧ ¬ Numbered ps ∧ ¬ Misapplied ps ∧ missing t = [] ∧
    ∀ k ∈ [SyntaxKind.LITERAL_PAT, .METHOD_CALL_EXPR, .DOT_EXPR, .CAST_EXPR, .STRUCT_PAT, .LABEL, .LABEL_DECL, .PATH_TYPE, .NAME],
      ∃ n ∈ (Elem.root t).descendants, n.kind = k := by
  have h : (match parseText oneChar false 300 fullText, tokenize oneChar 300 fullText with
    | .tree t _, some (some raw) => (match pieces fullText raw with
      | some ps => orderly (words ps) && decide (missing t = []) &&
        [SyntaxKind.LITERAL_PAT, .METHOD_CALL_EXPR, .DOT_EXPR, .CAST_EXPR, .STRUCT_PAT, .LABEL, .LABEL_DECL, .PATH_TYPE, .NAME].all
          fun k => (Elem.root t).descendants.any fun n => decide (n.kind = k)
      | none => false)
    | _, _ => false) = true := by decide +kernel
  revert h
  cases parseText oneChar false 300 fullText with
  | tree t errs =>
    cases tokenize oneChar 300 fullText with
    | none => intro h; cases h
    | some raw =>
      cases raw with
      | none => intro h; cases h
      | some raw =>
        dsimp only
        cases h1 : pieces fullText raw with
        | none => intro h; cases h
        | some ps =>
          intro h
          dsimp only at h
          rw [Bool.and_eq_true, Bool.and_eq_true] at h
          refine ⟨t, errs, raw, ps, rfl, rfl, h1, by decide, ?_, ?_, of_decide_eq_true h.1.2, ?_⟩
          · rintro ⟨i, x, y, a, b, c, d⟩
            exact (orderly_at h.1.1 i).1 x y a b ⟨c, d⟩
          · rintro ⟨i, x, a, b, c⟩
            exact (orderly_at h.1.1 i).2 x a b c
          · intro k hk
            have := List.any_eq_true.1 (List.all_eq_true.1 h.2 k hk)
            obtain ⟨n, hn, h2⟩ := this
            exact ⟨n, hn, of_decide_eq_true h2⟩
  | _ => intro h; cases h

end Verif.Syntax
