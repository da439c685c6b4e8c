import Verif.Ide.FieldTypes
import Verif.Ide.UsageScope

/-! C82: inlay hints (ide/src/inlay_hints.rs and ide/src/inlay_hints/{ident_pat,param_name,range_exclusive}.rs). -/

namespace Verif.Ide.Inlay
open Verif Verif.Syntax Verif.Nameres
open Verif.Parser (Green)
open Verif.Ide.Rename (exprKinds)
open Verif.Ide.Counts (rangeOf First Lacks nodeChild_iff childOf_iff name_text)
open Verif.Ide.FieldTypes (typeKinds tokenChild_iff)
open Verif.Ide.Usages (Parsed identPatOwners firstOf)
open Verif.Nameres.Full (Is isNode_iff nodeChild_mem)

/-! ### Model -/

/-- `InlayHintsConfig` (inlay_hints.rs:102–111) without `fields_to_resolve`, which only says what of a label is sent later. -/
structure Config where
  renderColons : Bool
  typeHints : Bool
  tupleHints : Bool
  paramHints : Bool
  rangeHints : Bool
  hideClosure : Bool

/-- The kinds of hints that are made (inlay_hints.rs:166–174). -/
inductive HintKind where
  | type
  | parameter
  | range
  deriving DecidableEq, Repr

/-- `InlayHintLabelPart` (inlay_hints.rs:372–384): the text and whether it is a link. Tooltips are never made. -/
structure Part where
  text : List Char
  linked : Bool
  deriving DecidableEq, Repr

/-- `InlayHint` (inlay_hints.rs:183–200). `pad_right` is always false and there are no text edits. -/
structure Hint where
  range : Nat × Nat
  before : Bool
  padLeft : Bool
  kind : HintKind
  label : List Part
  parent : Option (Nat × Nat)
  deriving DecidableEq, Repr

/-- `CallableItem` (lang/src/node_ext/callable.rs:168–176) with the names of the parameters. -/
inductive Callee where
  | function (name : Option (List Char)) (params : List (List Char))
  | predicate (params : List (List Char))
  | lambda (params : List (Option (List Char)))
  | unnamed (n : Nat)
  | assert

/-- What is asked of the database: of an identifier pattern with its ancestors its type, whether that is unknown and how it is shown
(`get_ident_pat_type`, `label_of_ty`), whether a path expression means a struct or enum, what is called (`callable_info`), and
lower case. -/
structure Env where
  type : List Elem → Option (Bool × Option (List Part))
  resource : Elem → Bool
  callee : List Elem → Option Callee
  lower : List Char → List Char

/-- `CallableItem::name` (callable.rs:178–186). -/
def Callee.name : Callee → Option (List Char)
  | .function n _ => n
  | .assert => some "assert!".toList
  | _ => none

/-- The names of `CallableInfo::params` (callable.rs:91–166). -/
def Callee.params (method : Bool) : Callee → List (Option (List Char))
  | .function _ ps => (if method then ps.drop 1 else ps).map some
  | .predicate ps => (if method then ps.drop 1 else ps).map some
  | .lambda ps => ps
  | .unnamed n => List.replicate n none
  | .assert => [some "_".toList, some "err".toList]

/-- `callable_info` (lang/src/semantics.rs:193–203). Without the built-in functions there is none for an assertion; no hints either way. -/
def calleeOf (env : Env) : List Elem → Option Callee
  | [] => none
  | c :: up => if c.kind = .ASSERT_MACRO_EXPR then some .assert else env.callee (c :: up)

/-- `KNOWN_CALLABLES` (param_name.rs:72–78, ide-db/src/defs.rs:27–35). -/
def knownCallables : List (List Char) :=
  ["borrow_global".toList, "borrow_global_mut".toList, "move_to".toList, "move_from".toList, "freeze".toList, "assert!".toList,
    "exists".toList]

/-- `arg_exprs` (any_call_expr.rs:8–10, value_arg_list.rs:10–12). -/
def argExprs (c : Elem) : List (Option Elem) :=
  match nodeChild c .VALUE_ARG_LIST with
  | some l => (l.children.filter (isNode .VALUE_ARG)).map fun a => childOf a exprKinds
  | none => []

/-- `str::contains`. -/
def holds (s : List Char) : List Char → Bool
  | [] => s.isEmpty
  | c :: t => s.isPrefixOf (c :: t) || holds s t

/-- param_name.rs:43–66, for one parameter and its argument. -/
def paramHint (cfg : Config) (env : Env) (name : List Char) (e : Elem) : Option Hint :=
  let n := name.dropWhile fun c => c == '_'
  if holds (env.lower n) (env.lower e.green.text) then none
  else some ⟨rangeOf e, true, false, .parameter, [⟨if cfg.renderColons then n ++ ": ".toList else n, false⟩], none⟩

/-- param_name.rs:16–70, of a call with its ancestors. -/
def paramHints (cfg : Config) (env : Env) : List Elem → List Hint
  | [] => []
  | c :: up =>
    if !cfg.paramHints then []
    else
      match calleeOf env (c :: up) with
      | none => []
      | some k =>
        if k.name.any fun n => knownCallables.contains n then []
        else
          let ps := k.params (decide (c.kind = .METHOD_CALL_EXPR))
          if ps.length = 1 then []
          else (ps.zip (argExprs c)).filterMap fun p => p.1.bind fun n => p.2.bind fun e => paramHint cfg env n e

/-- `borrow_global_index_expr` (syntax/src/ast/node_ext/expr.rs:23–28) of the initializer, and whether its base means a struct or enum
(ident_pat.rs:47–58). -/
def resourceInit (env : Env) (o : Elem) : Bool :=
  match childOf o exprKinds with
  | none => false
  | some b =>
    if b.kind = .BORROW_EXPR then
      match childOf b exprKinds with
      | none => false
      | some x =>
        if x.kind = .INDEX_EXPR then
          match childOf x exprKinds with
          | none => false
          | some p => decide (p.kind = .PATH_EXPR) && env.resource p
        else false
    else false

/-- ident_pat.rs:31–66: whether the binding of `o` gets a hint. -/
def wanted (cfg : Config) (env : Env) (up : List Elem) (o : Elem) : Bool :=
  if o.kind = .LAMBDA_PARAM then (childOf o typeKinds).isNone && !cfg.hideClosure
  else if o.kind = .LET_STMT then
    (childOf o typeKinds).isNone && !(!cfg.tupleHints && up.head?.any fun p => isNode .TUPLE_PAT p) &&
      !((up.head?.any fun p => isNode .LET_STMT p) && resourceInit env o)
  else false

/-- `prepend_str` (inlay_hints.rs:285–304). -/
def prepend (s : List Char) : List Part → List Part
  | ⟨t, false⟩ :: ps => ⟨s ++ t, false⟩ :: ps
  | ps => ⟨s, false⟩ :: ps

/-- ident_pat.rs:68–95. -/
def typeHint (cfg : Config) (i o : Elem) (label : List Part) : Hint :=
  let colon := tokenChild o .COLON
  let rc := cfg.renderColons && colon.isNone
  let r := rangeOf ((nodeChild i .NAME).getD i)
  ⟨match colon with
    | some t => (min r.1 t.start, max r.2 t.stop)
    | none => r, false, !rc, .type, if rc then prepend ": ".toList label else label, some (rangeOf i)⟩

/-- ident_pat.rs:14–96, of an identifier pattern with its ancestors. -/
def typeHints (cfg : Config) (env : Env) : List Elem → List Hint
  | [] => []
  | i :: up =>
    if !cfg.typeHints then []
    else
      match env.type (i :: up) with
      | none => []
      | some (true, _) => []
      | some (false, label) =>
        if (bindingName i).any fun n => n.head? == some '_' then []
        else
          match firstOf identPatOwners up with
          | some (o :: _) =>
            if wanted cfg env up o then
              match label with
              | some l => [typeHint cfg i o l]
              | none => []
            else []
          | _ => []

/-- `RangeExpr::end_expr` (syntax/src/ast/node_ext/range_expr.rs:15–17). -/
def endExpr (r : Elem) : Option Elem := (r.children.filter fun c => !c.green.isTok && exprKinds.contains c.kind)[1]?

/-- range_exclusive.rs:12–39. -/
def rangeHints (cfg : Config) (r : Elem) : List Hint :=
  if cfg.rangeHints && (endExpr r).isSome then
    match tokenChild r .DOT_DOT with
    | some t => [⟨rangeOf t, false, false, .range, [⟨"<".toList, false⟩], none⟩]
    | none => []
  else []

/-- `AnyCallExpr` (generated/nodes.rs:6299–6306). -/
def callKinds : List SyntaxKind := [.APPLY_LEMMA, .ASSERT_MACRO_EXPR, .BEHAVIOR_PREDICATE_EXPR, .CALL_EXPR, .METHOD_CALL_EXPR]

/-- `hints` (inlay_hints.rs:56–71) of a node with its ancestors. -/
def hintsOf (cfg : Config) (env : Env) : List Elem → List Hint
  | [] => []
  | e :: up =>
    if e.kind = .IDENT_PAT then typeHints cfg env (e :: up)
    else if callKinds.contains e.kind then paramHints cfg env (e :: up)
    else if e.kind = .RANGE_EXPR then rangeHints cfg e
    else []

mutual
/-- The nodes entered by the walk (inlay_hints.rs:37–49 and 87–98), each with its ancestors: those below a node that is not to be
entered are skipped. -/
def visit (keep : Elem → Bool) (anc : List Elem) (path : List Nat) (start : Nat) : Green → List (List Elem)
  | .tok _ _ => []
  | .node k cs =>
    if keep ⟨path, start, .node k cs⟩ then
      (⟨path, start, .node k cs⟩ :: anc) :: visits keep (⟨path, start, .node k cs⟩ :: anc) path 0 start cs
    else []
def visits (keep : Elem → Bool) (anc : List Elem) (path : List Nat) (i start : Nat) : List Green → List (List Elem)
  | [] => []
  | g :: gs => visit keep anc (i :: path) start g ++ visits keep anc path (i + 1) (start + g.len) gs
end

/-- `TextRange::intersect` of the range and that of the node is not `None`. -/
def touches (r : Nat × Nat) (e : Elem) : Bool := decide (max r.1 e.start ≤ min r.2 e.stop)

/-- `inlay_hints` (inlay_hints.rs:25–54). -/
def inlayHints (cfg : Config) (env : Env) (g : Green) : Option (Nat × Nat) → List Hint
  | none => (visit (fun _ => true) [] [] 0 g).flatMap (hintsOf cfg env)
  | some r => ((visit (touches r) [] [] 0 g).flatMap (hintsOf cfg env)).filter fun h => decide (r.1 ≤ h.range.1 ∧ h.range.2 ≤ r.2)

/-- What the hash of a hint is made of (inlay_hints.rs:221–231, 386–392). -/
def hashed (h : Hint) : (Nat × Nat) × Bool × Bool × HintKind × List Part := (h.range, h.before, h.padLeft, h.kind, h.label)

/-- `inlay_hints_resolve` (inlay_hints.rs:73–100). -/
def resolveHint (cfg : Config) (env : Env) (g : Green) (r : Nat × Nat) (hasher : (Nat × Nat) × Bool × Bool × HintKind × List Part → Nat)
    (hash : Nat) : Option Hint :=
  ((visit (touches r) [] [] 0 g).flatMap (hintsOf cfg env)).find? fun h => decide (hasher (hashed h) = hash)

/-- Where a hint is shown (aptos-language-server/src/lsp/to_proto.rs:747–750). -/
def Hint.place (h : Hint) : Nat := if h.before then h.range.1 else h.range.2

/-! ### Specification -/

/-- The name of the parameter for the `i`-th argument. The receiver of a method is the first parameter. -/
inductive Param (method : Bool) (i : Nat) : Callee → List Char → Prop where
  | function {f ps n} : ps[if method then i + 1 else i]? = some n → Param method i (.function f ps) n
  | predicate {ps n} : ps[if method then i + 1 else i]? = some n → Param method i (.predicate ps) n
  | lambda {ps n} : ps[i]? = some (some n) → Param method i (.lambda ps) n

/-- There is one parameter only, the receiver aside. -/
inductive Single (method : Bool) : Callee → Prop where
  | function {f ps} : ps.length = (if method then 2 else 1) → Single method (.function f ps)
  | predicate {ps} : ps.length = (if method then 2 else 1) → Single method (.predicate ps)
  | lambda {p} : Single method (.lambda [p])

/-- The functions that everyone knows. -/
def Known (f : String) : Prop :=
  f = "borrow_global" ∨ f = "borrow_global_mut" ∨ f = "move_to" ∨ f = "move_from" ∨ f = "freeze" ∨ f = "exists" ∨ f = "assert!"

/-- The `i`-th argument of a call. -/
def Argument (c : Elem) (i : Nat) (e : Elem) : Prop :=
  ∃ l pre a post, First [.VALUE_ARG_LIST] c l ∧ l.children = pre ++ a :: post ∧ Is .VALUE_ARG a ∧
    (pre.filter fun x => isNode .VALUE_ARG x).length = i ∧ First exprKinds a e

/-- The name without the underscores before it. -/
def Bare (n s : List Char) : Prop := ∃ k, n = List.replicate k '_' ++ s ∧ s.head? ≠ some '_'

/-- Patterns are a part of something of this kind. -/
def Owner (k : SyntaxKind) : Prop :=
  k = .LET_STMT ∨ k = .LAMBDA_PARAM ∨ k = .FOR_CONDITION ∨ k = .MATCH_ARM ∨ k = .PARAM ∨ k = .QUANT_BINDING ∨ k = .SCHEMA_FIELD ∨
    k = .ITEM_SPEC_PARAM

/-- What the pattern is a part of. -/
def Owns (up : List Elem) (o : Elem) : Prop := ∃ pre rest, up = pre ++ o :: rest ∧ Owner o.kind ∧ ∀ x ∈ pre, ¬ Owner x.kind

/-- No type is written. -/
def Untyped (o : Elem) : Prop := ∀ t, ¬ First typeKinds o t

/-- The initializer is `&R[…]` or `&mut R[…]` where `R` is a struct or enum. -/
def Borrows (env : Env) (o : Elem) : Prop :=
  ∃ b x p, First exprKinds o b ∧ b.kind = .BORROW_EXPR ∧ First exprKinds b x ∧ x.kind = .INDEX_EXPR ∧ First exprKinds x p ∧
    p.kind = .PATH_EXPR ∧ env.resource p = true

/-- The text of a label. -/
def shown (l : List Part) : List Char := (l.map Part.text).flatten

/-! ### The walk -/

theorem visits_eq (keep : Elem → Bool) (anc : List Elem) (path : List Nat) (i s : Nat) (gs : List Green) :
    visits keep anc path i s gs = (placed path i s gs).flatMap fun c => visit keep anc c.path c.start c.green := by
  induction gs generalizing i s with
  | nil => rfl
  | cons g gs ih => rw [visits, placed, List.flatMap_cons, ih]

theorem mem_visit (anc : List Elem) (e : Elem) (l : List Elem) : l ∈ visit (fun _ => true) anc e.path e.start e.green ↔
    ∃ t m, l = t :: m ++ anc ∧ Up e (t :: m) ∧ t.green.isTok = false := by
  obtain ⟨path, start, g⟩ := e
  induction g using Green.induction generalizing anc path start with
  | h g ih =>
  cases g with
  | tok k t =>
    simp only [visit, List.not_mem_nil, false_iff]
    rintro ⟨x, m, -, hu, hx⟩
    rcases hu.top_cases with h | ⟨c, hc, -⟩
    · cases h; cases hx
    · cases hc
  | node k cs =>
    simp only [visit, if_true, visits_eq]
    rw [List.mem_cons, List.mem_flatMap]
    constructor
    · rintro (rfl | ⟨c, hc, h⟩)
      · exact ⟨_, [], rfl, .top, rfl⟩
      · have hc' : c ∈ (⟨path, start, .node k cs⟩ : Elem).children := hc
        obtain ⟨t, m, rfl, hu, ht⟩ := (ih c.green (Elem.mem_children hc').1 _ c.path c.start).1 h
        have hsn := hu.snoc hc'
        rw [List.cons_append] at hsn
        exact ⟨t, m ++ [⟨path, start, .node k cs⟩], by simp, hsn, ht⟩
    · rintro ⟨t, m, rfl, hu, ht⟩
      rcases hu.top_cases with h | ⟨c, hc, l', hu', heq⟩
      · cases h; exact .inl rfl
      · refine .inr ⟨c, hc, (ih c.green (Elem.mem_children hc).1 _ c.path c.start).2 ?_⟩
        cases l' with
        | nil => cases hu'
        | cons y ys =>
          simp only [List.cons_append, List.cons.injEq] at heq
          obtain ⟨rfl, rfl⟩ := heq
          exact ⟨t, ys, by simp, hu', ht⟩

theorem mem_nodes (g : Green) (l : List Elem) : l ∈ visit (fun _ => true) [] [] 0 g ↔
    ∃ t m, l = t :: m ∧ Chain g (t :: m) ∧ t.green.isTok = false := by
  have := mem_visit [] (Elem.root g) l
  simp only [List.append_nil] at this
  exact this

/-- Nothing is missed by skipping nodes below which there is nothing that counts. -/
theorem visit_filter {keep : Elem → Bool} {f : List Elem → List Hint} {P : Hint → Bool} (anc : List Elem) (e : Elem)
    (h : ∀ t m x, Up e (t :: m) → x ∈ f (t :: m ++ anc) → P x = true → ∀ y ∈ t :: m, keep y = true) :
    ((visit keep anc e.path e.start e.green).flatMap f).filter P =
      ((visit (fun _ => true) anc e.path e.start e.green).flatMap f).filter P := by
  obtain ⟨path, start, g⟩ := e
  induction g using Green.induction generalizing anc path start with
  | h g ih =>
  cases g with
  | tok k t => rfl
  | node k cs =>
    cases hk : keep ⟨path, start, .node k cs⟩ with
    | true =>
      simp only [visit, hk, if_true, visits_eq, List.flatMap_cons, List.filter_append, List.flatMap_assoc, List.filter_flatMap]
      congr 1
      refine List.flatMap_congr fun c hc => ?_
      have hc' : c ∈ (⟨path, start, .node k cs⟩ : Elem).children := hc
      have := ih c.green (Elem.mem_children hc').1 (⟨path, start, .node k cs⟩ :: anc) c.path c.start fun t m x hu hx hP y hy => by
        have hsn := hu.snoc hc'
        rw [List.cons_append] at hsn
        refine h t (m ++ [⟨path, start, .node k cs⟩]) x hsn (by simpa using hx) hP y ?_
        simp only [List.mem_cons, List.mem_append] at hy ⊢
        rcases hy with hy | hy
        · exact .inl hy
        · exact .inr (.inl hy)
      simpa only [List.filter_flatMap] using this
    | false =>
      have hv : visit keep anc path start (.node k cs) = [] := by rw [visit, hk]; simp
      rw [hv]
      symm
      rw [List.flatMap_nil, List.filter_nil, List.filter_eq_nil_iff]
      intro x hx hP
      obtain ⟨l, hl, hx⟩ := List.mem_flatMap.1 hx
      obtain ⟨t, m, rfl, hu, -⟩ := (mem_visit anc ⟨path, start, .node k cs⟩ l).1 hl
      have hlast : (⟨path, start, .node k cs⟩ : Elem) ∈ t :: m := by
        rcases hu.top_cases with h' | ⟨c, hc, l', hu', heq⟩
        · rw [h']; simp
        · rw [heq]; simp
      have := h t m x hu hx hP _ hlast
      rw [hk] at this
      cases this

theorem mem_visit_keep {keep : Elem → Bool} (anc : List Elem) (e : Elem) {t : Elem} {m : List Elem} (hu : Up e (t :: m))
    (ht : t.green.isTok = false) (hk : ∀ y ∈ t :: m, keep y = true) : t :: m ++ anc ∈ visit keep anc e.path e.start e.green := by
  obtain ⟨path, start, g⟩ := e
  induction g using Green.induction generalizing anc path start m with
  | h g ih =>
  cases g with
  | tok k t' =>
    rcases hu.top_cases with h | ⟨c, hc, -⟩
    · cases h; cases ht
    · cases hc
  | node k cs =>
    rcases hu.top_cases with h | ⟨c, hc, l', hu', heq⟩
    · cases h
      rw [visit, if_pos (hk _ (by simp))]
      simp
    · have htop : (⟨path, start, .node k cs⟩ : Elem) ∈ t :: m := by rw [heq]; simp
      rw [visit, if_pos (hk _ htop), visits_eq]
      refine List.mem_cons_of_mem _ (List.mem_flatMap.2 ⟨c, hc, ?_⟩)
      cases l' with
      | nil => cases hu'
      | cons y ys =>
        simp only [List.cons_append, List.cons.injEq] at heq
        obtain ⟨rfl, rfl⟩ := heq
        have := ih c.green (Elem.mem_children hc).1 (⟨path, start, .node k cs⟩ :: anc) (fun y hy => hk y (by
          simp only [List.mem_cons, List.mem_append] at hy ⊢
          rcases hy with hy | hy <;> simp [hy])) c.path c.start hu'
        simpa using this

theorem visit_subset {keep : Elem → Bool} (anc : List Elem) (path : List Nat) (start : Nat) (g : Green) {l : List Elem}
    (h : l ∈ visit keep anc path start g) : l ∈ visit (fun _ => true) anc path start g := by
  induction g using Green.induction generalizing anc path start with
  | h g ih =>
  cases g with
  | tok k t => cases h
  | node k cs =>
    rw [visit] at h ⊢
    split at h
    · rw [visits_eq] at h
      rw [if_pos rfl, visits_eq]
      rcases List.mem_cons.1 h with h | h
      · exact h ▸ List.mem_cons_self
      · obtain ⟨c, hc, h⟩ := List.mem_flatMap.1 h
        have hc' : c ∈ (⟨path, start, .node k cs⟩ : Elem).children := hc
        exact List.mem_cons_of_mem _ (List.mem_flatMap.2 ⟨c, hc, ih c.green (Elem.mem_children hc').1 _ _ _ h⟩)
    · cases h

end Verif.Ide.Inlay
