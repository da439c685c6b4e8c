import Verif.Ide.QuickFixProps

/-! C65: what the factory makes of a text. -/

namespace Verif.Ide
open Verif.Syntax (SyntaxKind)
open Verif.Parser
open Verif.Lexer (oneChar Graphemes tokenize)

/-! ### Walks -/

/-- A walk that leaves the nodes it enters, and no others. -/
structure Even (ms : List Mark) : Prop where
  flat : ms.countP Mark.isLeave = ms.countP Mark.isEnter
  nest : ∀ n, (ms.take n).countP Mark.isLeave ≤ (ms.take n).countP Mark.isEnter

theorem Even.append {a b : List Mark} (ha : Even a) (hb : Even b) : Even (a ++ b) := by
  refine ⟨?_, fun n => ?_⟩
  · rw [List.countP_append, List.countP_append, ha.1, hb.1]
  · rw [List.take_append, List.countP_append, List.countP_append]
    exact Nat.add_le_add (ha.2 _) (hb.2 _)

theorem Even.node {a : List Mark} {k : SyntaxKind} (ha : Even a) : Even (.enter k :: a ++ [.leave]) := by
  refine ⟨?_, fun n => ?_⟩
  · simp only [List.countP_append, List.countP_cons, ha.1]
    simp [Mark.isLeave, Mark.isEnter]
  · cases n with
    | zero => simp
    | succ n =>
      simp only [List.cons_append, List.take_succ_cons, List.countP_cons, List.take_append, List.countP_append]
      have h1 := ha.2 n
      have h2 : ((List.take (n - a.length) [Mark.leave])).countP Mark.isLeave ≤ 1 := by
        refine Nat.le_trans List.countP_le_length ?_
        simp [List.length_take]
        omega
      simp [Mark.isLeave, Mark.isEnter] at *
      omega

theorem Even.leaf (k : SyntaxKind) : Even [.leaf k] := ⟨rfl, fun n => by cases n <;> simp [Mark.isLeave]⟩

theorem Even.nil : Even [] := ⟨rfl, by simp⟩

mutual
theorem green_even : ∀ g : Green, Even g.marks
  | .tok k _ => by
    unfold Green.marks
    split
    · exact Even.nil
    · exact Even.leaf k
  | .node k cs => Even.node (greens_even cs)
theorem greens_even : ∀ gs : List Green, Even (Green.marksList gs)
  | [] => Even.nil
  | g :: gs => (green_even g).append (greens_even gs)
end

theorem Even.of_level {xs : List Step} (h : Level xs) : Even (marks xs) := ⟨h.2, h.3⟩

/-- Where a node is left is determined. -/
theorem Even.unique {u v a b : List Mark} (hu : Even u) (hv : Even v) (h : u ++ .leave :: a = v ++ .leave :: b) : u = v := by
  have key : ∀ {u v a b : List Mark}, Even u → Even v → u ++ .leave :: a = v ++ .leave :: b → ¬u.length < v.length := by
    intro u v a b hu hv h hlt
    have h1 : v.take (u.length + 1) = u ++ [.leave] := by
      have : (v ++ .leave :: b).take (u.length + 1) = v.take (u.length + 1) := by
        rw [List.take_append_of_le_length (by omega)]
      rw [← this, ← h, List.take_append, List.take_of_length_le (by omega)]
      simp
    have h2 := hv.2 (u.length + 1)
    rw [h1, List.countP_append, List.countP_append, hu.1] at h2
    simp [Mark.isLeave, Mark.isEnter] at h2
    omega
  have hlen : u.length = v.length := by
    have h1 := key hu hv h
    have h2 := key hv hu h.symm
    omega
  exact (List.append_inj h hlen).1

/-- What is after the first entrance to a node of the kind. -/
def within (k : SyntaxKind) : List Mark → Option (List Mark)
  | [] => none
  | .enter k' :: ms => if k' = k then some ms else within k ms
  | _ :: ms => within k ms

theorem within_append {k : SyntaxKind} {a b : List Mark} :
    within k (a ++ b) = match within k a with | some r => some (r ++ b) | none => within k b := by
  induction a with
  | nil => rfl
  | cons x a ih =>
    cases x with
    | enter k' =>
      simp only [List.cons_append, within]
      split
      · rfl
      · exact ih
    | leave => exact ih
    | leaf _ => exact ih

mutual
theorem firstNode_spec {k : SyntaxKind} : ∀ g : Green, match firstNode k g with
    | some cs => ∃ s, within k g.marks = some (Green.marksList cs ++ .leave :: s)
    | none => within k g.marks = none
  | .tok k' _ => by
    simp only [firstNode, Green.marks]
    split <;> rfl
  | .node k' cs => by
    simp only [firstNode, Green.marks]
    split
    · rename_i heq
      split at heq
      · cases heq
        rename_i hk
        exact ⟨[], by simp [within, hk]⟩
      · rename_i hk
        have ih := firstNodeIn_spec (k := k) cs
        rw [heq] at ih
        obtain ⟨s, hs⟩ := ih
        exact ⟨s ++ [.leave], by simp [within, hk, within_append, hs]⟩
    · rename_i heq
      split at heq
      · cases heq
      · rename_i hk
        have ih := firstNodeIn_spec (k := k) cs
        rw [heq] at ih
        simp only at ih
        simp [within, hk, within_append, ih]
theorem firstNodeIn_spec {k : SyntaxKind} : ∀ gs : List Green, match firstNodeIn k gs with
    | some cs => ∃ s, within k (Green.marksList gs) = some (Green.marksList cs ++ .leave :: s)
    | none => within k (Green.marksList gs) = none
  | [] => rfl
  | g :: gs => by
    have h1 := firstNode_spec (k := k) g
    have h2 := firstNodeIn_spec (k := k) gs
    simp only [firstNodeIn, Green.marksList, within_append]
    cases hg : firstNode k g with
    | some cs =>
      rw [hg] at h1
      obtain ⟨s, hs⟩ := h1
      simp [hs]
    | none =>
      rw [hg] at h1
      simp only at h1
      simpa [h1] using h2
end

/-- Tokens before an expression are passed over. -/
theorem tailExpr_spec {k : SyntaxKind} (hk : exprKinds.contains k = true) {u : List Mark} (hu : Even u) : ∀ (gs : List Green) (w z : List Mark),
    (∀ x ∈ w, ∃ k', x = .leaf k') → Green.marksList gs = w ++ .enter k :: u ++ .leave :: z →
    ∃ cs, tailExpr gs = some (.node k cs) ∧ Green.marksList cs = u
  | [], w, z, _, h => by simp [Green.marksList] at h
  | .tok k' t :: gs, w, z, hw, h => by
    simp only [Green.marksList, Green.marks] at h
    split at h
    · exact tailExpr_spec hk hu gs w z hw h
    · cases w with
      | nil => simp at h
      | cons x w =>
        simp only [List.cons_append, List.nil_append, List.cons.injEq] at h
        exact tailExpr_spec hk hu gs w z (fun x hx => hw x (List.mem_cons_of_mem _ hx)) (by simpa using h.2)
  | .node k' cs :: gs, w, z, hw, h => by
    simp only [Green.marksList, Green.marks] at h
    cases w with
    | nil =>
      simp only [List.cons_append, List.nil_append, List.cons.injEq, Mark.enter.injEq, List.append_assoc] at h
      obtain ⟨rfl, h⟩ := h
      exact ⟨cs, by simp only [tailExpr, hk, if_true], (greens_even cs).unique hu h⟩
    | cons x w =>
      obtain ⟨k'', hx⟩ := hw x (List.mem_cons_self ..)
      simp [hx] at h

/-! ### The insides of an expression -/

theorem inside {e : Ex} {m : Nat} (h : e.Fits m) : ∃ xs, Level xs ∧ e.tree = .start e.kind :: xs ++ [.finish] := by
  cases e with
  | path addr more => exact ⟨_, Level.path addr more, rfl⟩
  | lit k => exact ⟨[tk k], Level.token (by rcases h with h | h | h | h | h <;> subst h <;> decide), rfl⟩
  | paren e =>
    exact ⟨_, (Level.token (k := .L_PAREN) (by decide)).append ((Ex.level_tree e (m := 1) h).append (Level.token (k := .R_PAREN) (by decide))),
      by simp [Ex.tree, Ex.rest]⟩
  | un o e => exact ⟨_, (Level.toks o).append (Ex.level_tree e (m := 255) h), by simp [Ex.tree, Ex.rest]⟩
  | field e num =>
    have h1 : Level [tk (if num then .INT_NUMBER else .IDENT)] := Level.token (by cases num <;> decide)
    exact ⟨_, (Ex.level_tree e h.2).append ((Level.token (k := .DOT) (by decide)).append (Level.node (k := .NAME_REF) h1)),
      by simp [Ex.tree, Ex.rest]⟩
  | index e i =>
    exact ⟨_, (Ex.level_tree e h.2.1).append ((Level.token (k := .L_BRACK) (by decide)).append ((Ex.level_tree i h.2.2).append
      (Level.token (k := .R_BRACK) (by decide)))), by simp [Ex.tree, Ex.rest]⟩
  | call e a =>
    exact ⟨_, (Ex.level_tree e h.2.1).append (Level.node (k := .VALUE_ARG_LIST) ((Level.token (k := .L_PAREN) (by decide)).append
      ((Args.level_tree a h.2.2).append (Level.token (k := .R_PAREN) (by decide))))), by simp [Ex.tree, Ex.rest]⟩
  | method e a =>
    exact ⟨_, (Ex.level_tree e h.2.1).append ((Level.token (k := .DOT) (by decide)).append ((Level.node (k := .NAME_REF)
      (Level.token (k := .IDENT) (by decide))).append (Level.node (k := .VALUE_ARG_LIST) ((Level.token (k := .L_PAREN) (by decide)).append
      ((Args.level_tree a h.2.2).append (Level.token (k := .R_PAREN) (by decide))))))), by simp [Ex.tree, Ex.rest]⟩
  | bin k l r =>
    exact ⟨_, (Ex.level_tree l h.2.2.1).append ((Level.token (isBin_trivia h.1)).append (Ex.level_tree r h.2.2.2.2.1)),
      by simp [Ex.tree, Ex.rest]⟩
  | cast e addr more =>
    exact ⟨_, (Ex.level_tree e h.2.2.1).append ((Level.token (k := .AS_KW) (by decide)).append (Level.node (k := .PATH_TYPE) (Level.path addr more))),
      by simp [Ex.tree, Ex.rest]⟩

theorem kind_expr (e : Ex) : exprKinds.contains e.kind = true := by
  cases e
  case un o e => cases o <;> rfl
  case bin k l r =>
    show exprKinds.contains (if k = .DOT_DOT then _ else _) = true
    split <;> rfl
  all_goals rfl

/-- **C65 (factory, partial).** The factory is given the text of an expression, in which no operand needs parentheses. Then it does not
panic, and it gives the node of this expression and of nothing else. Missing: as in `C64_expression_partial`. -/
theorem C65_factory_partial {g : List Char → Nat} (hg : Graphemes g) (hb : AsciiBreaks g) (debug : Bool) {text : List Char} {fuel : Nat}
    (hfuel : 2 * (factoryText text).length + 2 ≤ fuel) {raw : List Lexer.RawToken} {ps : List Piece}
    (ht : tokenize g fuel (factoryText text) = some (some raw)) (hp : pieces (factoryText text) raw = some ps) {e : Ex} {q : Nat}
    (h : Input.IsFun ⟨source ps, debug⟩ [] (some e) q) (hf : e.Fits 1) :
    ∃ t, exprFromText g debug fuel e.kind text = some t ∧ t.marks = marks e.tree := by
  obtain ⟨t, h1, h2⟩ := C64_body_partial hg hb debug hfuel ht hp h ⟨by simp, by rintro _ ⟨⟩; exact hf⟩
  obtain ⟨xs, hl, hx⟩ := inside hf
  have hw : within .BLOCK_EXPR t.marks = some ((.leaf .L_CURLY :: marks e.tree ++ [.leaf .R_CURLY]) ++ .leave :: [.leave, .leaf .R_CURLY, .leave, .leave]) := by
    rw [h2]
    simp only [funTree, funItemTree, blockTree, bodyTree, marks, List.cons_append, List.nil_append, List.append_assoc, marks_append]
    simp [within]
  have h3 := firstNode_spec (k := .BLOCK_EXPR) t
  cases hn : firstNode .BLOCK_EXPR t with
  | none =>
    rw [hn] at h3
    simp only at h3
    rw [hw] at h3
    cases h3
  | some cs =>
    rw [hn] at h3
    obtain ⟨s, hs⟩ := h3
    rw [hw] at hs
    have heven : Even (.leaf .L_CURLY :: marks e.tree ++ [.leaf .R_CURLY]) :=
      ((Even.leaf .L_CURLY).append (Even.of_level (e.level_tree hf))).append (Even.leaf .R_CURLY)
    have hcs := heven.unique (greens_even cs) (Option.some.inj hs)
    obtain ⟨cs', h4, h5⟩ := tailExpr_spec (kind_expr e) (Even.of_level hl) cs [.leaf .L_CURLY] [.leaf .R_CURLY] (by simp)
      (by rw [← hcs, hx]; simp [marks, marks_append])
    refine ⟨.node e.kind cs', ?_, ?_⟩
    · unfold exprFromText
      simp only [h1, hn, Option.bind_some, h4, if_true]
    · rw [hx]
      simp [Green.marks, h5, marks, marks_append]

/-! ### Failures -/

/-- **C65 fails (index expressions).** `*vector::borrow(&*v, i)` would be replaced by `*v[i]`. This is no index expression, and the factory
panics on its text. -/
theorem C65_index_fails (debug : Bool) :
    indexFix (.un .deref (.call (.path false 1) (.more (.un .borrow (.un .deref (.path false 0))) (.one (.path false 0))))) =
      some (.index (.un .deref (.path false 0)) (.path false 0)) ∧
    (∀ m, ¬(Ex.index (.un .deref (.path false 0)) (.path false 0)).Fits m) ∧
    (exprFromText oneChar debug 200 .INDEX_EXPR "*v[i]".toList).isNone = true ∧
    (exprFromText oneChar debug 200 .DEREF_EXPR "*v[i]".toList).isSome = true := by
  refine ⟨rfl, fun m h => h.1.elim, ?_, ?_⟩ <;> cases debug <;> decide +kernel

/-- **C65 fails (compound assignments without an operator).** `x = x == y` is reported as replaceable by a compound assignment; there is
no such assignment and no fix. -/
theorem C65_compound_fails {same : Ex → Ex → Bool} (hsame : ∀ a, same a a = true) :
    compoundReported same (.bin .EQ (.path false 0) (.bin .EQ_EQ (.path false 0) (.path false 0))) = true ∧
    compoundFix same (.bin .EQ (.path false 0) (.bin .EQ_EQ (.path false 0) (.path false 0))) = none ∧
    ∀ k, level k = 1 → symbol k ≠ some "===" := by
  refine ⟨by simp [compoundReported, hsame], by simp [compoundFix, compoundReported, hsame, assignOp], fun k _ => ?_⟩
  cases k <;> decide

/-- **C65 fails (words).** Nothing is put between a word and the new text: after the fix in `return*vector::borrow(&v, 0)` there is no `return`,
but an index expression of `returnv`. -/
theorem C65_word_fails (debug : Bool) :
    (parseText oneChar debug 200 "module 0x1::m { fun f(): u8 { return*vector::borrow(&v, 0) } }".toList).reads .RETURN_EXPR
      "return*vector::borrow(&v, 0)" = (true, some []) ∧
    (parseText oneChar debug 200 "module 0x1::m { fun f(): u8 { returnv[0] } }".toList).reads .INDEX_EXPR "returnv[0]" = (true, some []) := by
  refine ⟨?_, ?_⟩ <;> cases debug <;> decide +kernel

/-! ### Examples -/

/-- `1 - f(&a + b, c).x` becomes `1 - (&a + b).f(c).x`. -/
example : ∃ y, methodFix (.call (.path false 0) (.more (.bin .PLUS (.un .borrow (.path false 0)) (.path false 0)) (.one (.path false 0)))) = some y ∧
    y = .method (.paren (.bin .PLUS (.un .borrow (.path false 0)) (.path false 0))) (.one (.path false 0)) ∧
    (Place.fill [.field false, .right .MINUS (.lit .INT_NUMBER)]
      (.call (.path false 0) (.more (.bin .PLUS (.un .borrow (.path false 0)) (.path false 0)) (.one (.path false 0))))).Fits 1 := by
  refine ⟨_, rfl, rfl, ?_⟩
  simp only [Place.fill, Frame.fill, Ex.Fits, Ex.last, Ex.minus, Ex.Primary, Args.Fits]
  exact ⟨by decide, by decide, by simp, by decide, ⟨trivial, trivial, by simp, ⟨by decide, by decide, by simp, by decide, by simp, by simp⟩,
    by simp, by simp⟩, by simp⟩

/-- `a = a << b` becomes `a <<= b`. -/
example : compoundFix (fun _ _ => true) (.bin .EQ (.path false 0) (.bin .SHL (.path false 0) (.path false 0))) =
    some (.bin .SHL_EQ (.path false 0) (.path false 0)) := rfl

example : ∃ k k', level k' = 1 ∧ assignOp k = some k' := ⟨.SHL, .SHL_EQ, by decide, rfl⟩

/-- `*vector::borrow(&a.x, i)` becomes `a.x[i]`. -/
example : ∃ y, indexFix (.un .deref (.call (.path false 1) (.more (.un .borrow (.field (.path false 0) false)) (.one (.path false 0))))) = some y ∧
    ∀ e i, y = .index e i → e.Primary := ⟨_, rfl, by rintro _ _ ⟨⟩; trivial⟩

/-- `borrow_global_mut<T>(a).x` becomes `T[a].x`, and `f(borrow_global_mut<T>(a))` becomes `f(&mut T[a])`. -/
example : resourceFix false true false 0 [.field false] (.call (.path false 0) (.one (.path false 0))) =
      some (.index (.path false 0) (.path false 0)) ∧
    resourceFix false true false 0 [.callArg (.path false 0) [] []] (.call (.path false 0) (.one (.path false 0))) =
      some (.un .borrowMut (.index (.path false 0) (.path false 0))) := ⟨rfl, rfl⟩

/-- The node of the factory is no statement. -/
example : tailExpr [.tok .L_CURLY ['{'], .node .LET_STMT [], .node .PATH_EXPR [], .tok .R_CURLY ['}']] = some (.node .PATH_EXPR []) := rfl

/-- A fix in a file: `x as u8 == (b)` becomes `x == (b)`. -/
example (debug : Bool) : ∃ t, parseText oneChar debug 200 bodyText = .tree t [] ∧ t.marks = marks (funTree bodyStms (some bodyTail)) := by
  refine C65_file_partial oneChar_graphemes oneChar_breaks debug (same := fun _ _ => false) (by simp)
    (at' := .tail bodyStms [.left .EQ_EQ (.paren (.path false 0))]) (x := .cast (.path false 0) false 0) (y := .path false 0)
    (.cast rfl (by decide)) ⟨body_fits.1, ?_⟩ (by decide) (by decide +kernel : tokenize oneChar 200 bodyText = some (some bodyRaw))
    (by decide +kernel : pieces bodyText bodyRaw = some bodyPieces) (body_input debug)
  rintro _ ⟨⟩
  simp only [Place.fill, Frame.fill, Ex.Fits, Ex.last, Ex.minus]
  exact ⟨by decide, by decide, ⟨by simp, by decide, by simp, by decide⟩, by decide, by simp, by simp⟩

def factoryRaw : List Lexer.RawToken := ((tokenize oneChar 200 (factoryText "a + b".toList)).getD none).getD []
def factoryPieces : List Piece := (pieces (factoryText "a + b".toList) factoryRaw).getD []

theorem factory_input (debug : Bool) : Input.IsFun ⟨source factoryPieces, debug⟩ [] (some (.bin .PLUS (.path false 0) (.path false 0))) 13 := by
  have hop : Input.OpAt ⟨source factoryPieces, debug⟩ 11 .PLUS := by
    have hk : Input.atKind ⟨source factoryPieces, debug⟩ 11 .PLUS = true ∧
        ∀ l ∈ levels, ∀ k' ∈ l, Input.atKind ⟨source factoryPieces, debug⟩ 11 k' = true → (parts k').length ≤ (parts .PLUS).length := by
      cases debug <;> decide +kernel
    refine ⟨hk.1, fun k' hk' => ?_⟩
    obtain ⟨h1, -⟩ := hk'
    unfold level at h1
    split at h1
    · rename_i hl
      rw [List.any_eq_true] at hl
      obtain ⟨l, hl1, hl2⟩ := hl
      exact hk.2 l hl1 k' (List.contains_iff_mem.1 hl2)
    · exact absurd rfl h1
  have hplain : ∀ p ∈ [6, 10, 12], Input.kindAt ⟨source factoryPieces, debug⟩ p = .IDENT ∧
      ∀ w ∈ words, Input.textAt ⟨source factoryPieces, debug⟩ p ≠ w.toList := by
    cases debug <;> decide +kernel
  have hend : ∀ p ∈ [11, 13], Input.kindAt ⟨source factoryPieces, debug⟩ p ≠ .COLON_COLON ∧
      Input.kindAt ⟨source factoryPieces, debug⟩ p ≠ .L_ANGLE ∧ Input.kindAt ⟨source factoryPieces, debug⟩ p ≠ .L_CURLY := by
    cases debug <;> decide +kernel
  have hname : ∀ p ∈ [10, 12], Ex.At ⟨source factoryPieces, debug⟩ (.path false 0) p (p + 1) := by
    intro p hp
    have h1 := hend (p + 1) (by revert p; decide)
    exact ⟨⟨hplain p (by clear h1; revert p; decide), rfl⟩, ⟨h1.1, fun h => absurd h h1.2.1⟩, h1.2.2⟩
  have hk : ∀ x ∈ [(0, SyntaxKind.MODULE_KW), (1, .INT_NUMBER), (2, .COLON_COLON), (3, .IDENT), (4, .L_CURLY), (5, .FUN_KW), (6, .IDENT),
      (7, .L_PAREN), (8, .R_PAREN), (9, .L_CURLY), (13, .R_CURLY), (14, .R_CURLY), (15, .EOF)],
      Input.kindAt ⟨source factoryPieces, debug⟩ x.1 = x.2 := by
    cases debug <;> decide +kernel
  have k (p : Nat) (kd : SyntaxKind) (h) : Input.kindAt ⟨source factoryPieces, debug⟩ p = kd := hk (p, kd) h
  exact ⟨k _ _ (by decide), k _ _ (by decide), k _ _ (by decide), k _ _ (by decide), k _ _ (by decide), k _ _ (by decide), k _ _ (by decide),
    (hplain 6 (by decide)).2, k _ _ (by decide), k _ _ (by decide), k _ _ (by decide), ⟨11, hname 10 (by decide), hop, hname 12 (by decide)⟩,
    k _ _ (by decide), k _ _ (by decide), k _ _ (by decide)⟩

example (debug : Bool) : ∃ t, exprFromText oneChar debug 200 .BIN_EXPR "a + b".toList = some t ∧
    t.marks = marks (Ex.bin .PLUS (.path false 0) (.path false 0)).tree := by
  refine C65_factory_partial (e := .bin .PLUS (.path false 0) (.path false 0)) oneChar_graphemes oneChar_breaks debug (by decide)
    (by decide +kernel : tokenize oneChar 200 (factoryText "a + b".toList) = some (some factoryRaw))
    (by decide +kernel : pieces (factoryText "a + b".toList) factoryRaw = some factoryPieces) (factory_input debug) ?_
  simp only [Ex.Fits, Ex.last, Ex.minus]
  exact ⟨by decide, by decide, by simp, by decide, by simp, by simp⟩

end Verif.Ide
