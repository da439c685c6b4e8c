import Verif.Syntax.Tokens

/-! Loop labels (lang/src/nameres/labels.rs). -/

namespace Verif.Nameres
open Verif.Parser (Green)
open Verif.Syntax

/-- labels.rs:57–62. -/
def isLabelBarrier (k : SyntaxKind) : Bool :=
  [SyntaxKind.LAMBDA_EXPR, .FUN, .SPEC_FUN, .SPEC_INLINE_FUN, .LEMMA, .CONST].contains k

/-- `ast::LoopLike::can_cast`. -/
def isLoopLike (k : SyntaxKind) : Bool := [SyntaxKind.FOR_EXPR, .LOOP_EXPR, .WHILE_EXPR].contains k

/-- labels.rs:16–27, of the ancestors of the element from the inside out. -/
def loopAncestors : List Elem → List Elem
  | [] => []
  | e :: es =>
    if isLabelBarrier e.kind then []
    else if isLoopLike e.kind then e :: loopAncestors es
    else loopAncestors es

/-- The text of the `QUOTE_IDENT` token (syntax/src/ast/node_ext/loop_label.rs). -/
def quoteIdent (e : Elem) : List Char := ((tokenChild e .QUOTE_IDENT).map fun t => t.green.text).getD []

/-- labels.rs:30–42: names and declarations. -/
def labelVariants (anc : List Elem) : List (List Char × Elem) :=
  (loopAncestors anc).filterMap fun l => (nodeChild l .LABEL_DECL).map fun d => (quoteIdent d, d)

/-- nameres.rs:60–68 (`resolve_multi` of a label). -/
def resolveLabels (name : List Char) (anc : List Elem) : List Elem :=
  ((labelVariants anc).filter fun e => decide (e.1 = name)).map Prod.snd

/-- nameres.rs:38–45 with scope.rs:127–130: the only entry, if there is exactly one. -/
def resolveLabel (name : List Char) (anc : List Elem) : Option Elem :=
  match resolveLabels name anc with
  | [d] => some d
  | _ => none

/-! ### Specification -/

/-- The body of one of these is entered anew: `break` and `continue` do not reach out of it. -/
def Boundary (e : Elem) : Prop :=
  match e.kind with
  | .FUN | .SPEC_FUN | .SPEC_INLINE_FUN | .LEMMA | .LAMBDA_EXPR | .CONST => True
  | _ => False

def IsLoop (e : Elem) : Prop := e.kind = .WHILE_EXPR ∨ e.kind = .LOOP_EXPR ∨ e.kind = .FOR_EXPR

/-- `d` declares the label of the loop `l`, which is around the place and not outside of its function or lambda. -/
def Declares (anc : List Elem) (name : List Char) (l d : Elem) : Prop :=
  ∃ inner outer, anc = inner ++ l :: outer ∧ (∀ p ∈ inner ++ [l], ¬ Boundary p) ∧ IsLoop l ∧ nodeChild l .LABEL_DECL = some d ∧
    quoteIdent d = name

theorem barrier_iff (e : Elem) : isLabelBarrier e.kind = true ↔ Boundary e := by
  unfold Boundary
  generalize e.kind = k
  cases k <;> decide +kernel

theorem loop_iff (e : Elem) : isLoopLike e.kind = true ↔ IsLoop e := by
  simp only [isLoopLike, IsLoop, List.contains_iff_mem, List.mem_cons, List.not_mem_nil, or_false]
  generalize e.kind = k
  cases k <;> decide +kernel

theorem mem_loopAncestors (anc : List Elem) (l : Elem) : l ∈ loopAncestors anc ↔
    ∃ inner outer, anc = inner ++ l :: outer ∧ (∀ p ∈ inner ++ [l], ¬ Boundary p) ∧ IsLoop l := by
  induction anc with
  | nil => simp [loopAncestors]
  | cons e es ih =>
    rw [loopAncestors]
    have step : (∃ inner outer, e :: es = inner ++ l :: outer ∧ (∀ p ∈ inner ++ [l], ¬ Boundary p) ∧ IsLoop l) ↔
        ¬ Boundary e ∧ ((e = l ∧ IsLoop e) ∨
          ∃ inner outer, es = inner ++ l :: outer ∧ (∀ p ∈ inner ++ [l], ¬ Boundary p) ∧ IsLoop l) := by
      constructor
      · rintro ⟨inner, outer, h1, h2, h3⟩
        cases inner with
        | nil =>
          simp only [List.nil_append, List.cons.injEq] at h1
          obtain ⟨rfl, rfl⟩ := h1
          exact ⟨h2 e (by simp), .inl ⟨rfl, h3⟩⟩
        | cons x xs =>
          simp only [List.cons_append, List.cons.injEq] at h1
          obtain ⟨rfl, rfl⟩ := h1
          exact ⟨h2 e (by simp), .inr ⟨xs, outer, rfl, fun p hp => h2 p (by simp at hp ⊢; exact .inr hp), h3⟩⟩
      · rintro ⟨h1, (⟨rfl, h2⟩ | ⟨inner, outer, rfl, h2, h3⟩)⟩
        · exact ⟨[], es, rfl, by simpa using h1, h2⟩
        · refine ⟨e :: inner, outer, rfl, ?_, h3⟩
          intro p hp
          rw [List.cons_append] at hp
          rcases List.mem_cons.1 hp with rfl | hp
          · exact h1
          · exact h2 p hp
    rw [step]
    by_cases hb : isLabelBarrier e.kind
    · rw [if_pos hb]
      simp [(barrier_iff e).1 hb]
    · rw [if_neg hb]
      have hb' : ¬ Boundary e := fun h => hb ((barrier_iff e).2 h)
      by_cases hl : isLoopLike e.kind
      · rw [if_pos hl, List.mem_cons, ih]
        have := (loop_iff e).1 hl
        constructor
        · rintro (rfl | h)
          · exact ⟨hb', .inl ⟨rfl, this⟩⟩
          · exact ⟨hb', .inr h⟩
        · rintro ⟨-, (⟨rfl, -⟩ | h)⟩
          · exact .inl rfl
          · exact .inr h
      · rw [if_neg hl, ih]
        have hl' : ¬ IsLoop e := fun h => hl ((loop_iff e).2 h)
        constructor
        · intro h; exact ⟨hb', .inr h⟩
        · rintro ⟨-, (⟨-, h⟩ | h)⟩
          · exact absurd h hl'
          · exact h

/-- The loops are listed from the inside out. -/
theorem loopAncestors_sublist (anc : List Elem) : (loopAncestors anc).Sublist anc := by
  induction anc with
  | nil => exact .slnil
  | cons e es ih =>
    rw [loopAncestors]
    split
    · exact List.nil_sublist _
    · split
      · exact ih.cons_cons _
      · exact ih.cons _

/-- A label finds exactly the declarations of the loops around it inside its function or lambda. -/
theorem C52_found (name : List Char) (anc : List Elem) (d : Elem) :
    d ∈ resolveLabels name anc ↔ ∃ l, Declares anc name l d := by
  simp only [resolveLabels, labelVariants, List.mem_map, List.mem_filter, List.mem_filterMap, mem_loopAncestors, decide_eq_true_eq,
    Prod.exists, Option.map_eq_some_iff, Prod.mk.injEq]
  constructor
  · rintro ⟨n, d', ⟨⟨l, ⟨i, o, h1, h2, h3⟩, x, h4, rfl, rfl⟩, rfl⟩, rfl⟩
    exact ⟨l, i, o, h1, h2, h3, h4, rfl⟩
  · rintro ⟨l, i, o, h1, h2, h3, h4, rfl⟩
    exact ⟨_, d, ⟨⟨l, ⟨i, o, h1, h2, h3⟩, d, h4, rfl, rfl⟩, rfl⟩, rfl⟩

theorem resolveLabels_append (name : List Char) (a b : List Elem) (h : ∀ p ∈ a, ¬ Boundary p) :
    resolveLabels name (a ++ b) = resolveLabels name a ++ resolveLabels name b := by
  have : loopAncestors (a ++ b) = loopAncestors a ++ loopAncestors b := by
    induction a with
    | nil => rfl
    | cons e a ih =>
      have hb : ¬ isLabelBarrier e.kind = true := fun hb => h e (by simp) ((barrier_iff e).1 hb)
      have ih := ih fun p hp => h p (by simp [hp])
      rw [List.cons_append, loopAncestors, loopAncestors, if_neg hb, if_neg hb, ih]
      split <;> rfl
  simp [resolveLabels, labelVariants, this]

/-- The first one found belongs to the innermost loop with that label. -/
theorem C52_innermost (name : List Char) (anc : List Elem) (d : Elem) (ds : List Elem) (h : resolveLabels name anc = d :: ds) :
    ∃ inner l outer, anc = inner ++ l :: outer ∧ Declares anc name l d ∧ ∀ m ∈ inner, ∀ e, ¬ (IsLoop m ∧ nodeChild m .LABEL_DECL = some e ∧
      quoteIdent e = name) := by
  induction anc with
  | nil => simp [resolveLabels, labelVariants, loopAncestors] at h
  | cons x anc ih =>
    by_cases hb : Boundary x
    · exfalso
      have : resolveLabels name (x :: anc) = [] := by
        simp [resolveLabels, labelVariants, loopAncestors, (barrier_iff x).2 hb]
      rw [this] at h; cases h
    · rw [show x :: anc = [x] ++ anc from rfl, resolveLabels_append name [x] anc (by simpa using hb)] at h
      cases hx : resolveLabels name [x] with
      | cons d' ds' =>
        rw [hx, List.cons_append, List.cons.injEq] at h
        obtain ⟨rfl, -⟩ := h
        have : d' ∈ resolveLabels name [x] := by rw [hx]; simp
        obtain ⟨l, i, o, h1, h2, h3, h4, h5⟩ := (C52_found name [x] d').1 this
        have : i = [] ∧ l = x := by
          cases i with
          | nil => simp at h1; exact ⟨rfl, h1.1.symm⟩
          | cons y ys => simp at h1
        obtain ⟨rfl, rfl⟩ := this
        exact ⟨[], l, anc, rfl, ⟨[], anc, rfl, by simpa using hb, h3, h4, h5⟩, by simp⟩
      | nil =>
        rw [hx, List.nil_append] at h
        obtain ⟨inner, l, outer, h1, ⟨i, o, h2, h3, h4⟩, h5⟩ := ih h
        refine ⟨x :: inner, l, outer, by rw [h1]; rfl, ⟨x :: i, o, by rw [h2]; rfl, ?_, h4⟩, ?_⟩
        · intro p hp
          rw [List.cons_append] at hp
          rcases List.mem_cons.1 hp with rfl | hp
          · exact hb
          · exact h3 p hp
        · intro m hm e he
          rcases List.mem_cons.1 hm with rfl | hm
          · have : e ∈ resolveLabels name [m] :=
              (C52_found name [m] e).2 ⟨m, [], [], rfl, by simpa using hb, he⟩
            rw [hx] at this; cases this
          · exact h5 m hm e he

/-- A label goes to a declaration when it is the only loop around the place that declares it. -/
theorem C52_goto_partial (name : List Char) (anc : List Elem) (d : Elem) (h : resolveLabel name anc = some d) :
    ∃ l, Declares anc name l d := by
  refine (C52_found name anc d).1 ?_
  unfold resolveLabel at h
  split at h
  · rename_i x hx
    cases h
    rw [hx]; simp
  · cases h

/-! ### Examples -/

def exDecl : Green := .node .LABEL_DECL [.tok .QUOTE_IDENT ['\'', 'a'], .tok .COLON [':']]

/-- `'a: loop { break 'a }`, with the path to the label. -/
def exLoop : Elem := ⟨[0], 0, .node .LOOP_EXPR [exDecl, .tok .LOOP_KW "loop".toList]⟩
def exOuter : Elem := ⟨[0, 0], 0, .node .WHILE_EXPR [exDecl, .tok .WHILE_KW "while".toList]⟩
def exFun : Elem := ⟨[0, 0, 0], 0, .node .FUN []⟩
def exLambda : Elem := ⟨[0, 0, 0], 0, .node .LAMBDA_EXPR []⟩

example : (resolveLabel ['\'', 'a'] [exLoop, exFun, exOuter]).isSome = true := by decide +kernel
example : (resolveLabels ['\'', 'a'] [exLambda, exLoop, exFun]).isEmpty = true := by decide +kernel
example : (resolveLabels ['\'', 'a'] [exLoop, exOuter, exFun]).length = 2 := by decide +kernel

/-- Of two nested loops with the same label none is found by `resolve`, although the inner one is meant. -/
theorem C52_shadow_fails : ∃ name anc l d, Declares anc name l d ∧ resolveLabel name anc = none := by
  refine ⟨['\'', 'a'], [exLoop, exOuter, exFun], exLoop, ⟨[0, 0], 0, exDecl⟩, ⟨[], _, rfl, ?_, ?_, rfl, by decide +kernel⟩, ?_⟩
  · intro p hp
    simp at hp
    subst hp
    simp [Boundary, Elem.kind, exLoop, Green.kind]
  · simp [IsLoop, Elem.kind, exLoop, Green.kind]
  · have : (resolveLabels ['\'', 'a'] [exLoop, exOuter, exFun]).length = 2 := by decide +kernel
    unfold resolveLabel
    split
    · rename_i h; rw [h] at this; cases this
    · rfl

end Verif.Nameres
