import Verif.Ide.Simplify
import Verif.Ide.Rename
import Verif.Nameres.Scopes

/-! C76: examples, and the fixes that go wrong. -/

namespace Verif.Ide.Simplify
open Verif Verif.Parser
open Verif.Syntax (SyntaxKind)
open Verif.Lexer (oneChar)

/-- `expr_from_text` (syntax/src/ast/syntax_factory/exprs.rs:180–184, make.rs:32–45): the last expression in the body, as text, if it is
of the kind; otherwise the `unwrap` panics. -/
def fromText (k : SyntaxKind) (text : List Char) : Option (List Char) :=
  match parseText oneChar false 300 ("module 0x1::m { fun main() { ".toList ++ text ++ " } }".toList) with
  | .tree t _ =>
    ((⟨[], 0, t⟩ : Syntax.Elem).descendants.find? (Syntax.isNode .BLOCK_EXPR)).bind fun b =>
      (Nameres.childOf b Ide.Rename.exprKinds).bind fun e => if e.kind = k then some e.green.text else none
  | _ => none

/-- `SyntaxFactory::index_expr` (exprs.rs:23–25). -/
def makeIndex (base arg : List Char) : Option (List Char) := fromText .INDEX_EXPR (base ++ '[' :: arg ++ [']'])

/-- A name. -/
def name : Ex := .path false 0

/-- Is the text read without an error, with nodes of these kinds and texts? -/
def readsAs (text : String) (nodes : List (SyntaxKind × String)) : Bool :=
  match parseText oneChar false 300 ("module 0x1::m{fun f(){" ++ text ++ "}}").toList with
  | .tree t errs => errs.isEmpty && nodes.all fun x => t.nodes.contains (x.1, x.2.toList)
  | _ => false

/-! ### What fails -/

/-- **C76 fails for vectors behind a dereference.** `*vector::borrow(&*p, i)` is written without parentheses. The fix makes the text
`*p[i]` of it, which is no index expression, and panics; for `*vector::borrow(&p, i)` it does not. -/
theorem C76_index_fails :
    indexFix (.un .deref (.call (.path false 1) (.more (.un .borrow (.un .deref name)) (.one name)))) = some (.index (.un .deref name) name) ∧
    (∀ m, ¬ (Ex.index (.un .deref name) name).Fits m) ∧
    readsAs "*vector::borrow(&*p,i)" [(.DEREF_EXPR, "*vector::borrow(&*p,i)"), (.BORROW_EXPR, "&*p")] = true ∧
    makeIndex "*p".toList "i".toList = none ∧ makeIndex "p".toList "i".toList = some "p[i]".toList := by
  refine ⟨rfl, fun m h => h.1, ?_, ?_, ?_⟩ <;> decide +kernel

/-- **C76 fails for casts before an operator.** `a + b as u64 * c` is a product, of which the cast is the first factor. After the
redundant cast is removed, it is a sum. -/
theorem C76_cast_fails :
    castFix (.cast (.bin .PLUS name name) false 0) = some (.bin .PLUS name name) ∧
    (fill [.left .STAR name] (.cast (.bin .PLUS name name) false 0)).Fits 1 ∧
    ¬ (fill [.left .STAR name] (.bin .PLUS name name)).Fits 1 ∧
    readsAs "a + b as u64 * c" [(.BIN_EXPR, "a + b as u64 * c"), (.CAST_EXPR, "a + b as u64"), (.BIN_EXPR, "a + b")] = true ∧
    readsAs "a + b * c" [(.BIN_EXPR, "a + b * c"), (.BIN_EXPR, "b * c")] = true := by
  refine ⟨rfl, ?_, ?_, ?_, ?_⟩
  · simp only [fill, Frame.fill, name, Ex.Fits, Ex.last, Ex.minus]
    exact ⟨by decide, by decide, ⟨by simp, by decide, ⟨by decide, by decide, by simp, by decide, by simp, by simp⟩, by decide⟩, by decide,
      by simp, by simp⟩
  · intro h
    have h' : level .STAR < level .PLUS + 1 := fill_takes h
    exact absurd h' (by decide)
  · decide +kernel
  · decide +kernel

/-- **C76 fails for resources that are indexed.** `borrow_global<V>(a)[0]` is an element of what is borrowed. The fix makes the text
`&V[a][0]` of it, which is a borrow of an element. -/
theorem C76_resource_fails :
    resourceFix [.base (.lit .INT_NUMBER)] false false 0 (.call name (.one name)) = some (.un .borrow (.index name name)) ∧
    (fill [.base (.lit .INT_NUMBER)] (.call name (.one name))).Fits 1 ∧
    ¬ (fill [.base (.lit .INT_NUMBER)] (.un .borrow (.index name name))).Fits 1 ∧
    readsAs "borrow_global<V>(a)[0]" [(.INDEX_EXPR, "borrow_global<V>(a)[0]"), (.CALL_EXPR, "borrow_global<V>(a)")] = true ∧
    readsAs "&V[a][0]" [(.BORROW_EXPR, "&V[a][0]"), (.INDEX_EXPR, "V[a][0]")] = true := by
  refine ⟨rfl, ?_, ?_, ?_, ?_⟩
  · simp [fill, Frame.fill, name, Ex.Fits, Ex.Primary, Args.Fits]
  · intro h
    exact (fill_takes h : Ex.Primary (.un .borrow (.index name name)))
  · decide +kernel
  · decide +kernel

/-- **C76 fails for calls on the left side.** In `v[f()] = v[f()] + 1` there are two calls, in `v[f()] += 1` there is one. -/
theorem C76_twice_fails : let place := Ex.index name (.call name .none)
    compoundShown (fun _ _ => true) (.bin .EQ place (.bin .PLUS place (.lit .INT_NUMBER))) = true ∧
    compoundFix (.bin .EQ place (.bin .PLUS place (.lit .INT_NUMBER))) = some (.bin .PLUS_EQ place (.lit .INT_NUMBER)) ∧
    calls (.bin .EQ place (.bin .PLUS place (.lit .INT_NUMBER))) = 2 ∧ calls (.bin .PLUS_EQ place (.lit .INT_NUMBER)) = 1 := by
  refine ⟨by decide, rfl, by decide, by decide⟩

/-- **C76 fails for operators without a compound assignment.** For `a = a == b` it is said that it can be replaced with a compound
assignment, and there is no fix. -/
theorem C76_offer_fails : compoundShown (fun _ _ => true) (.bin .EQ name (.bin .EQ_EQ name name)) = true ∧
    compoundFix (.bin .EQ name (.bin .EQ_EQ name name)) = none ∧ ∀ k, ¬ Compound .EQ_EQ k := by
  refine ⟨by decide, rfl, ?_⟩
  rintro k ⟨w, h, -⟩
  simp [spelled] at h

/-! ### Examples that meet the hypotheses -/

/-- `!(x = x + y * z)`. -/
example : compoundShown (fun _ _ => true) (.bin .EQ name (.bin .PLUS name (.bin .STAR name name))) = true ∧
    compoundFix (.bin .EQ name (.bin .PLUS name (.bin .STAR name name))) = some (.bin .PLUS_EQ name (.bin .STAR name name)) ∧
    (fill [.paren, .un .not] (.bin .EQ name (.bin .PLUS name (.bin .STAR name name)))).Fits 1 := by
  refine ⟨by decide, rfl, ?_⟩
  simp only [fill, Frame.fill, name, Ex.Fits, Ex.last, Ex.minus]
  exact ⟨by decide, by decide, by simp, by decide,
    ⟨by decide, by decide, by simp, by decide, ⟨by decide, by decide, by simp, by decide, by simp, by simp⟩, by simp⟩, by simp⟩

/-- `same` can be the comparison of trees. -/
example : ∀ x y : Ex, (fun _ _ => false : Ex → Ex → Bool) x y = true → x = y := fun _ _ h => by cases h

/-- `2 * *vector::borrow(&v.x, i + 1)`. -/
example : let e := Ex.un .deref (.call (.path false 1) (.more (.un .borrow (.field name false)) (.one (.bin .PLUS name (.lit .INT_NUMBER)))))
    Element e (.un .borrow (.field name false)) (.bin .PLUS name (.lit .INT_NUMBER)) ∧
    indexFix e = some (.index (.field name false) (.bin .PLUS name (.lit .INT_NUMBER))) ∧
    (fill [.right .STAR (.lit .INT_NUMBER)] e).Fits 1 ∧ ∀ x, Borrows (.un .borrow (.field name false)) x → x.Primary := by
  refine ⟨.inl ⟨_, rfl⟩, rfl, ?_, ?_⟩
  · simp only [fill, Frame.fill, name, Ex.Fits, Ex.last, Ex.minus, Args.Fits, Ex.Primary]
    exact ⟨by decide, by decide, by simp, by decide, ⟨trivial, by simp, ⟨trivial, by simp⟩, by simp, by decide, by decide, by simp, by decide,
      by simp, by simp⟩, by simp⟩
  · rintro x (h | h) <;> cases h
    trivial

/-- `vector::length(&mut *p) + 1`. -/
example : methodFix (.call (.path false 1) (.one (.un .borrowMut (.un .deref name)))) = some (.method (.paren (.un .deref name)) .none) ∧
    (fill [.left .PLUS (.lit .INT_NUMBER)] (.call (.path false 1) (.one (.un .borrowMut (.un .deref name))))).Fits 1 := by
  refine ⟨rfl, ?_⟩
  simp only [fill, Frame.fill, name, Ex.Fits, Ex.last, Ex.minus, Args.Fits, Ex.Primary]
  exact ⟨by decide, by decide, ⟨trivial, by simp, by simp⟩, by decide, by simp, by simp⟩

/-- `a * b as u64 + c`, where the cast can be removed. -/
example : (fill [.left .PLUS name] (.cast (.bin .STAR name name) false 0)).Fits 1 ∧
    ∀ k r, [Frame.left .PLUS name].head? = some (.left k r) → level k < (Ex.bin .STAR name name).last := by
  refine ⟨?_, ?_⟩
  · simp only [fill, Frame.fill, name, Ex.Fits, Ex.last, Ex.minus]
    exact ⟨by decide, by decide, ⟨by simp, by decide, ⟨by decide, by decide, by simp, by decide, by simp, by simp⟩, by decide⟩, by decide,
      by simp, by simp⟩
  · rintro k r h
    cases h
    decide

/-- `f(borrow_global_mut<T>(a))` and `borrow_global<T>(a).x`. -/
example : resourceFix [.arg name .only] true false 0 (.call name (.one name)) = some (.un .borrowMut (.index name name)) ∧
    resourceFix [.field false] false false 0 (.call name (.one name)) = some (.index name name) ∧
    (fill [.arg name .only] (.call name (.one name))).Fits 1 ∧ (fill [.field false] (.call name (.one name))).Fits 1 := by
  refine ⟨rfl, rfl, ?_, ?_⟩ <;> simp [fill, Frame.fill, ArgHole.fill, name, Ex.Fits, Ex.Primary, Args.Fits]

/-- `x = (x + y) * (b as u8)` reads the same with the cast removed. -/
example : Fixed [.paren, .right .STAR name, .right .EQ name] (.cast name false 0) name := .cast rfl (by rintro k r ⟨⟩)

/-- The text of the example for bodies in C64 is that of the fix which removes the cast in `x == (b as u8)` at its end. -/
example (debug : Bool) : Fixed [.paren, .right .EQ_EQ name] (.cast name false 0) name ∧
    Replaced (fill [.paren, .right .EQ_EQ name] (.cast name false 0)) (fill [.paren, .right .EQ_EQ name] name)
      bodyStms (some (.bin .EQ_EQ name (.paren (.cast name false 0)))) bodyStms (some bodyTail) ∧
    BodyFits bodyStms (some (.bin .EQ_EQ name (.paren (.cast name false 0)))) ∧
    Input.IsFun ⟨source bodyPieces, debug⟩ bodyStms (some bodyTail) 30 := by
  refine ⟨.cast rfl (by rintro k r ⟨⟩), .tail bodyStms, ⟨body_fits.1, ?_⟩, body_input debug⟩
  rintro x ⟨⟩
  simp only [name, Ex.Fits, Ex.last, Ex.minus]
  exact ⟨by decide, by decide, by simp, by decide, ⟨by simp, by decide, by simp, by decide⟩, by simp⟩

end Verif.Ide.Simplify
