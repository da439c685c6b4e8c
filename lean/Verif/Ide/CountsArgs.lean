import Verif.Ide.CountsProps

/-! C74: when arguments and type arguments are reported. -/

namespace Verif.Ide.Counts
open Verif Verif.Syntax Verif.Nameres
open Verif.Parser (Green)
open Verif.Ide.Rename (exprKinds)
open Verif.Ide.Usages (Parsed)
open Verif.Nameres.Full (Is isNode_iff nodeChild_mem)

/-! ### Specification of arguments -/

/-- The call takes from `lo` to `hi` arguments. A method takes one fewer than the function has parameters. The macros take one or two
expressions that are checked, and up to five that make up the message. -/
inductive Takes (env : Env) (c : Elem) (up : List Elem) : Nat → Nat → Prop where
  | call {n} : c.kind = .CALL_EXPR ∨ c.kind = .APPLY_LEMMA → env.callable (c :: up) = some n → Takes env c up n n
  | method {n} : c.kind = .METHOD_CALL_EXPR → env.callable (c :: up) = some (n + 1) → Takes env c up n n
  | predicate {n} : c.kind = .BEHAVIOR_PREDICATE_EXPR → env.predicate (c :: up) = some n → Takes env c up n n
  | assert {t} : c.kind = .ASSERT_MACRO_EXPR → tokenChild c .IDENT = some t → t.green.text = "assert".toList ∨ t.green.text = "debug_assert".toList →
      Takes env c up 1 6
  | assert2 {t} : c.kind = .ASSERT_MACRO_EXPR → tokenChild c .IDENT = some t → t.green.text ∈ ["assert_eq".toList, "assert_ne".toList,
      "debug_assert_eq".toList, "debug_assert_ne".toList] → Takes env c up 2 7

/-- The arguments of a call with their expressions. -/
def Arguments (l : Elem) (es : List Elem) : Prop :=
  List.Forall₂ (fun a e => First exprKinds a e) (l.children.filter (isNode .VALUE_ARG)) es

/-- How a message says how many arguments there should be. -/
def howMany (lo hi : Nat) : String := if lo = hi then toString lo else toString lo ++ " to " ++ toString hi

/-- The message for a wrong number of arguments. -/
def argumentsMessage (lo hi n : Nat) : List Char :=
  "This function takes ".toList ++ (howMany lo hi).toList ++ " parameters, but ".toList ++ (toString n).toList ++
    " parameters were supplied".toList

theorem argMessage_eq (lo hi n : Nat) : argMessage lo hi n = argumentsMessage lo hi n := by
  unfold argMessage argumentsMessage howMany digits
  split <;> simp

theorem bounds_of {env : Env} {c : Elem} {up : List Elem} {lo hi : Nat} (h : Takes env c up lo hi) : bounds env (c :: up) = .between lo hi := by
  unfold bounds
  dsimp only
  cases h with
  | call hk h => rcases hk with hk | hk <;> simp [hk, h]
  | method hk h => simp [hk, h]
  | predicate hk h => simp [hk, h]
  | assert hk h hw =>
    rw [if_pos hk, h]
    simp only [Option.map_some, assertBounds]
    rcases hw with hw | hw <;> rw [hw] <;> decide +kernel
  | assert2 hk h hw =>
    rw [if_pos hk, h]
    simp only [Option.map_some, assertBounds]
    simp only [List.mem_cons, List.not_mem_nil, or_false] at hw
    rcases hw with hw | hw | hw | hw <;> rw [hw] <;> decide +kernel

theorem mapM_args {as es : List Elem} (h : List.Forall₂ (fun a e => First exprKinds a e) as es) :
    (as.mapM fun a => childOf a exprKinds) = some es := by
  induction h with
  | nil => rfl
  | cons h1 h2 ih => rw [List.mapM_cons, childOf_iff.2 h1, ih]; rfl

theorem mapM_gap {as : List Elem} (h : ∃ a ∈ as, ∀ e, ¬ First exprKinds a e) : (as.mapM fun a => childOf a exprKinds) = none := by
  induction as with
  | nil => obtain ⟨a, ha, -⟩ := h; cases ha
  | cons b as ih =>
    rw [List.mapM_cons]
    cases hb : childOf b exprKinds with
    | none => rfl
    | some e =>
      have : (as.mapM fun a => childOf a exprKinds) = none := by
        obtain ⟨a, ha, h1⟩ := h
        rcases List.mem_cons.1 ha with rfl | ha
        · exact absurd (childOf_iff.1 hb) (h1 e)
        · exact ih ⟨a, ha, h1⟩
      rw [this]; rfl

/-- **C74 (arguments).** A call of something that takes from `lo` to `hi` arguments is reported exactly if the number of its arguments
is outside of these bounds. There is one error then. It is at the closing parenthesis, or at the list if that is missing, if there are
too few arguments, and at the first that is too many otherwise, and it says both numbers. -/
theorem C74_arguments (env : Env) {c l : Elem} {up : List Elem} (hl : First [.VALUE_ARG_LIST] c l) {es : List Elem} (he : Arguments l es)
    {lo hi : Nat} (ht : Takes env c up lo hi) :
    (lo ≤ es.length → es.length ≤ hi → checkArgs env (c :: up) = some []) ∧
    (es.length < lo → ∃ at_, (tokenChild l .R_PAREN = some at_ ∨ tokenChild l .R_PAREN = none ∧ at_ = l) ∧
      checkArgs env (c :: up) = some [⟨argumentsMessage lo hi es.length, (at_.start, at_.stop)⟩]) ∧
    (hi < es.length → ∃ e, es[hi]? = some e ∧
      checkArgs env (c :: up) = some [⟨argumentsMessage lo hi es.length, (e.start, e.stop)⟩]) := by
  have hle : lo ≤ hi := by cases ht <;> omega
  unfold checkArgs
  dsimp only
  rw [nodeChild_iff.2 hl]
  dsimp only
  rw [mapM_args he, bounds_of ht]
  dsimp only
  rw [argMessage_eq]
  refine ⟨fun h1 h2 => ?_, fun h1 => ?_, fun h1 => ?_⟩
  · rw [if_neg (by omega), if_neg (by omega)]
  · rw [if_pos h1]
    cases hr : tokenChild l .R_PAREN with
    | none => exact ⟨l, .inr ⟨rfl, rfl⟩, rfl⟩
    | some r => exact ⟨r, .inl rfl, rfl⟩
  · rw [if_neg (by omega), if_pos h1]
    refine ⟨es[hi], by simp, ?_⟩
    rw [List.drop_eq_getElem_cons h1]
    rfl

/-- **C74 (no guesses).** A call is not reported if it has no list of arguments, if one of the arguments has no expression, or if it
is not known what is called. -/
theorem C74_unknown (env : Env) {c : Elem} {up : List Elem} (h : Lacks .VALUE_ARG_LIST c ∨
      (∃ l a, First [.VALUE_ARG_LIST] c l ∧ a ∈ l.children ∧ Is .VALUE_ARG a ∧ ∀ e, ¬ First exprKinds a e) ∨
      c.kind ∈ [SyntaxKind.CALL_EXPR, .APPLY_LEMMA, .METHOD_CALL_EXPR] ∧ env.callable (c :: up) = none ∨
      c.kind = .BEHAVIOR_PREDICATE_EXPR ∧ env.predicate (c :: up) = none) : checkArgs env (c :: up) = some [] := by
  unfold checkArgs
  dsimp only
  rcases h with h | ⟨l, a, h1, h2, h3, h4⟩ | h
  · rw [lacks_iff.2 h]
  · rw [nodeChild_iff.2 h1]
    dsimp only
    rw [mapM_gap ⟨a, List.mem_filter.2 ⟨h2, (isNode_iff _ _).2 h3⟩, h4⟩]
  · have : bounds env (c :: up) = .unknown := by
      unfold bounds
      dsimp only
      rcases h with ⟨hk, h⟩ | ⟨hk, h⟩
      · simp only [List.mem_cons, List.not_mem_nil, or_false] at hk
        rcases hk with hk | hk | hk <;> simp [hk, h]
      · simp [hk, h]
    rw [this]
    split
    · rfl
    · split <;> rfl

/-- **C74 (where the check panics).** The check of a method call whose arguments are written in full panics exactly if the method has
no parameter at all, not even the receiver. -/
theorem C74_panic (env : Env) {c l : Elem} {up : List Elem} (hk : c.kind = .METHOD_CALL_EXPR) (hl : First [.VALUE_ARG_LIST] c l)
    {es : List Elem} (he : Arguments l es) : checkArgs env (c :: up) = none ↔ env.callable (c :: up) = some 0 := by
  cases hc : env.callable (c :: up) with
  | none => simp [C74_unknown env (.inr (.inr (.inl ⟨by rw [hk]; simp, hc⟩)))]
  | some n =>
    cases n with
    | zero =>
      simp only [iff_true]
      unfold checkArgs
      dsimp only
      rw [nodeChild_iff.2 hl]
      dsimp only
      rw [mapM_args he]
      simp [bounds, hk, hc]
    | succ n =>
      obtain ⟨h1, h2, h3⟩ := C74_arguments env hl he (.method hk hc)
      refine ⟨fun h => ?_, fun h => by simp at h⟩
      rcases Nat.lt_trichotomy es.length n with h4 | h4 | h4
      · obtain ⟨_, -, h5⟩ := h2 h4
        rw [h5] at h; cases h
      · rw [h1 (by omega) (by omega)] at h; cases h
      · obtain ⟨_, -, h5⟩ := h3 h4
        rw [h5] at h; cases h

/-! ### Specification of type arguments -/

/-- The path or the method call, the name in it and its type arguments, if any are written. -/
inductive Writes (e n : Elem) : Option Elem → Prop where
  | path {s l} : e.kind = .PATH → First [.PATH_SEGMENT] e s → First [.NAME_REF] s n → First [.TYPE_ARG_LIST] s l → Writes e n (some l)
  | pathNone {s} : e.kind = .PATH → First [.PATH_SEGMENT] e s → First [.NAME_REF] s n → Lacks .TYPE_ARG_LIST s → Writes e n none
  | method {l} : e.kind = .METHOD_CALL_EXPR → First [.NAME_REF] e n → First [.TYPE_ARG_LIST] e l → Writes e n (some l)
  | methodNone : e.kind = .METHOD_CALL_EXPR → First [.NAME_REF] e n → Lacks .TYPE_ARG_LIST e → Writes e n none

/-- The type arguments of a list. -/
def Args (l : Elem) : List Elem := l.children.filter (isNode .TYPE_ARG)

/-- The path or method call is what a call calls. -/
inductive Called : List Elem → Prop where
  | method {e up} : e.kind = .METHOD_CALL_EXPR → Called (e :: up)
  | path {e x c up} {qs : List Elem} : e.kind = .PATH → (∀ q ∈ qs, Is .PATH q) → x.kind = .PATH_EXPR → c.kind = .CALL_EXPR →
      Called (e :: qs ++ x :: c :: up)

/-- Where the number of written type arguments is checked. -/
inductive Checked (kind : SyntaxKind) (e parent : Elem) (above : List Elem) : Prop where
  | type : kind = .STRUCT → parent.kind = .PATH_TYPE → (∀ a ∈ above, a.kind ≠ .ACQUIRES) → Checked kind e parent above
  | literal : kind = .STRUCT → parent.kind = .STRUCT_LIT → Checked kind e parent above
  | schema : kind = .SCHEMA → parent.kind = .SCHEMA_LIT → Checked kind e parent above
  | call : kind = .FUN ∨ kind = .SPEC_FUN ∨ kind = .SPEC_INLINE_FUN → Called (e :: parent :: above) → Checked kind e parent above

/-- The message for a wrong number of type arguments. -/
def typesMessage (label : List Char) (expected actual : Nat) : List Char :=
  "Invalid instantiation of '".toList ++ label ++ "'. Expected ".toList ++ (toString expected).toList ++ " type argument(s), but got ".toList ++
    (toString actual).toList

/-- What is reported for a list of type arguments. -/
inductive ListErrors (label : List Char) (expected : Nat) (l : Elem) : List Report → Prop where
  | unwanted : expected = 0 → ListErrors label expected l [⟨"No type arguments expected for '".toList ++ label ++ "'".toList, (l.start, l.stop)⟩]
  | few : (Args l).length < expected → ListErrors label expected l [⟨typesMessage label expected (Args l).length, (l.start, l.stop)⟩]
  | right : expected ≠ 0 → (Args l).length = expected → ListErrors label expected l []
  | many {ok surplus} : expected ≠ 0 → Args l = ok ++ surplus → ok.length = expected → surplus ≠ [] →
      ListErrors label expected l (surplus.map fun a => ⟨typesMessage label expected (Args l).length, (a.start, a.stop)⟩)

/-- The path is the word `vector`, not qualified, in a type. -/
def VectorType (e n parent : Elem) : Prop :=
  e.kind = .PATH ∧ n.green.text = "vector".toList ∧ Lacks .PATH e ∧ parent.kind = .PATH_TYPE

theorem checkList_errors (label : List Char) (expected : Nat) (l : Elem) : ListErrors label expected l (checkList label expected l) := by
  have h0 : typeArgs l = Args l := rfl
  unfold checkList
  split
  · next h => exact .unwanted h
  · next h =>
    split
    · next h1 => exact .few h1
    · next h1 =>
      rw [h0] at *
      by_cases h2 : (Args l).length = expected
      · rw [List.drop_eq_nil_of_le (by omega)]
        exact .right h h2
      · refine .many (ok := (Args l).take expected) h (List.take_append_drop ..).symm (by rw [List.length_take]; omega) fun h3 => ?_
        have := List.drop_eq_nil_iff.1 h3
        omega

theorem rootPath_qs {e x : Elem} {qs rest : List Elem} (hq : ∀ q ∈ qs, Is .PATH q) (hx : x.kind ≠ .PATH) :
    ∃ r, rootPath (e :: qs ++ x :: rest) = r :: x :: rest := by
  induction qs generalizing e with
  | nil =>
    refine ⟨e, ?_⟩
    rw [List.cons_append, List.nil_append, rootPath, if_neg]
    rw [isNode_iff]
    exact fun h => hx h.2
  | cons q qs ih =>
    obtain ⟨r, hr⟩ := ih (e := q) fun p hp => hq p (List.mem_cons_of_mem _ hp)
    refine ⟨r, ?_⟩
    rw [List.cons_append, List.cons_append, rootPath, if_pos ((isNode_iff _ _).2 (hq q (List.mem_cons_self ..)))]
    exact hr

theorem rootPath_shape : ∀ (e : Elem) (up : List Elem), ∃ (qs rest : List Elem), e :: up = e :: qs ++ rest ∧ (∀ q ∈ qs, Is .PATH q) ∧
    (rootPath (e :: up)).tail = rest
  | e, [] => ⟨[], [], rfl, by simp, by simp [rootPath]⟩
  | e, q :: up => by
    rw [rootPath]
    split
    · next h =>
      obtain ⟨qs, rest, h1, h2, h3⟩ := rootPath_shape q up
      refine ⟨q :: qs, rest, by rw [List.cons_append, List.cons_append]; rw [List.cons_append] at h1; rw [h1], fun x hx => ?_, h3⟩
      rcases List.mem_cons.1 hx with rfl | hx
      · exact (isNode_iff _ _).1 h
      · exact h2 x hx
    · exact ⟨[], q :: up, rfl, by simp, rfl⟩

theorem isCalled_iff {e : Elem} {up : List Elem} (hk : e.kind = .PATH ∨ e.kind = .METHOD_CALL_EXPR) :
    isCalled (e :: up) e = true ↔ Called (e :: up) := by
  unfold isCalled
  rw [Bool.or_eq_true, decide_eq_true_eq]
  constructor
  · rintro (h | h)
    · exact .method h
    · rcases hk with hk | hk
      · obtain ⟨qs, rest, h1, h2, h3⟩ := rootPath_shape e up
        rw [h3] at h
        split at h <;> [skip; cases h]
        next x c r =>
        rw [Bool.and_eq_true, decide_eq_true_eq, decide_eq_true_eq] at h
        rw [h1]
        exact .path hk h2 h.1 h.2
      · exact .method hk
  · intro h
    generalize hs : e :: up = s at h
    cases h with
    | method h => cases hs; exact .inl h
    | @path e' x c up' qs h1 h2 h3 h4 =>
      obtain ⟨r, hr⟩ := rootPath_qs (e := e') (rest := c :: up') h2 (show x.kind ≠ .PATH by rw [h3]; decide)
      rw [hr]
      right
      simp [h3, h4]

theorem writes_holder {e n : Elem} {l : Option Elem} (h : Writes e n l) :
    ((holder e).bind fun h => nodeChild h .NAME_REF) = some n ∧ ((holder e).bind fun h => nodeChild h .TYPE_ARG_LIST) = l := by
  unfold holder
  cases h with
  | path hk h1 h2 h3 =>
    rw [if_neg (by rw [hk]; decide), nodeChild_iff.2 h1]
    exact ⟨nodeChild_iff.2 h2, nodeChild_iff.2 h3⟩
  | pathNone hk h1 h2 h3 =>
    rw [if_neg (by rw [hk]; decide), nodeChild_iff.2 h1]
    exact ⟨nodeChild_iff.2 h2, lacks_iff.2 h3⟩
  | method hk h1 h2 =>
    rw [if_pos hk]
    exact ⟨nodeChild_iff.2 h1, nodeChild_iff.2 h2⟩
  | methodNone hk h1 h2 =>
    rw [if_pos hk]
    exact ⟨nodeChild_iff.2 h1, lacks_iff.2 h2⟩

theorem writes_kind {e n : Elem} {l : Option Elem} (h : Writes e n l) : e.kind = .PATH ∨ e.kind = .METHOD_CALL_EXPR := by
  cases h <;> first | exact .inl ‹_› | exact .inr ‹_›

theorem writes_name {g : Green} (hp : Parsed g) {e n : Elem} {up : List Elem} (hc : Chain g (e :: up)) {l : Option Elem} (h : Writes e n l) :
    nameRefText n = n.green.text := by
  cases h with
  | path _ h1 h2 => exact ref_text hp (.child (.child hc h1.mem) h2.mem) h2.kind
  | pathNone _ h1 h2 => exact ref_text hp (.child (.child hc h1.mem) h2.mem) h2.kind
  | method _ h1 => exact ref_text hp (.child hc h1.mem) h1.kind
  | methodNone _ h1 => exact ref_text hp (.child hc h1.mem) h1.kind

/-- The number of type arguments that are written. -/
def written (l : Option Elem) : Nat := match l with
  | some l => (Args l).length
  | none => 0

theorem chain_parent {g : Green} {e p : Elem} {up : List Elem} (h : Chain g (e :: p :: up)) : e ∈ p.children := by
  generalize hs : e :: p :: up = s at h
  cases h with
  | top => cases hs
  | child h1 h2 => cases hs; exact h2

theorem vector_none {g : Green} {e parent n : Elem} {above : List Elem} (hc : Chain g (e :: parent :: above)) {l : Option Elem}
    (hw : Writes e n l) {name : List Char} (hn : name = n.green.text) (h : VectorType e n parent → written l = 1) :
    vectorReport (e :: parent :: above) e name (written l) = none := by
  unfold vectorReport
  rw [if_neg]
  rintro ⟨h1, h2, h3, h4, h5⟩
  have hk := (writes_kind hw).resolve_right h1
  by_cases hq : isNode .PATH parent = true
  · -- the root of the path has a qualifier
    have key : ∀ (up : List Elem) (e q : Elem), Chain g (e :: q :: up) → Is .PATH e → isNode .PATH q = true →
        ∃ r rest, rootPath (e :: q :: up) = r :: rest ∧ (nodeChild r .PATH).isSome = true := by
      intro up
      induction up with
      | nil =>
        intro e q hc he hq
        refine ⟨q, [], by simp [rootPath, hq], ?_⟩
        unfold nodeChild
        rw [List.find?_isSome]
        exact ⟨e, chain_parent hc, (isNode_iff _ _).2 he⟩
      | cons r up ih =>
        intro e q hc he hq
        rw [rootPath, if_pos hq]
        by_cases hr : isNode .PATH r = true
        · have hc' : Chain g (q :: r :: up) := by
            generalize hs : e :: q :: r :: up = s at hc
            cases hc with
            | top => cases hs
            | child h1 h2 => cases hs; exact h1
          exact ih q r hc' ((isNode_iff _ _).1 hq) hr
        · refine ⟨q, r :: up, by rw [rootPath, if_neg hr], ?_⟩
          unfold nodeChild
          rw [List.find?_isSome]
          exact ⟨e, chain_parent hc, (isNode_iff _ _).2 he⟩
    have hnode : Is .PATH e := by
      refine ⟨?_, hk⟩
      cases hw with
      | path _ h1 => obtain ⟨_, _, h6, -⟩ := h1; cases hg : e.green with
        | tok => simp [Elem.children, hg, placed, Green.children] at h6
        | node => rfl
      | pathNone _ h1 => obtain ⟨_, _, h6, -⟩ := h1; cases hg : e.green with
        | tok => simp [Elem.children, hg, placed, Green.children] at h6
        | node => rfl
      | method h6 => rw [hk] at h6; cases h6
      | methodNone h6 => rw [hk] at h6; cases h6
    obtain ⟨r, rest, h6, h7⟩ := key above e parent hc hnode hq
    rw [h6] at h3
    simp [Option.isNone_iff_eq_none] at h3
    rw [h3] at h7
    cases h7
  · have hroot : rootPath (e :: parent :: above) = e :: parent :: above := by rw [rootPath, if_neg hq]
    rw [hroot] at h3
    rw [rootParentKind, hroot] at h4
    simp only [List.head?_cons, Option.any_some, Option.isNone_iff_eq_none, lacks_iff, List.tail_cons, Option.map_some,
      Option.some.injEq] at h3 h4
    exact h5 (h ⟨hk, by rw [← hn, h2], h3, h4⟩)

/-- **C74 (vector).** The type `vector` is reported exactly if it does not have one type argument: there is one error then, at the
name with its arguments. -/
theorem C74_vector {g : Green} (hp : Parsed g) (env : Env) {e parent n : Elem} {above : List Elem} (hc : Chain g (e :: parent :: above))
    {l : Option Elem} (hw : Writes e n l) (hv : VectorType e n parent) (hnone : env.generic (e :: parent :: above) = none) :
    checkTypes env (e :: parent :: above) =
      if written l = 1 then [] else [⟨typesMessage "vector".toList 1 (written l), (e.start, e.stop)⟩] := by
  obtain ⟨h1, h2⟩ := writes_holder hw
  have hlen : (((l.map typeArgs).getD []).length) = written l := by cases l <;> rfl
  unfold checkTypes
  dsimp only
  rw [h1]
  dsimp only
  rw [h2, hlen, writes_name hp hc hw]
  by_cases h : written l = 1
  · rw [vector_none hc hw rfl fun _ => h, hnone, if_pos h]
  · rw [if_neg h]
    obtain ⟨h3, h4, h5, h6⟩ := hv
    have hroot : rootPath (e :: parent :: above) = e :: parent :: above := by
      rw [rootPath, if_neg]
      rw [isNode_iff]
      rintro ⟨-, h7⟩
      rw [h6] at h7
      cases h7
    have : vectorReport (e :: parent :: above) e n.green.text (written l) =
        some ⟨countMessage "vector".toList 1 (written l), rangeOf e⟩ := by
      unfold vectorReport
      rw [rootParentKind, hroot, if_pos]
      refine ⟨by rw [h3]; decide, h4, ?_, by simp [h6], h⟩
      simp only [List.head?_cons, Option.any_some, Option.isNone_iff_eq_none, lacks_iff]
      exact h5
    rw [this]
    rfl

/-- `checkTypes` once the name is known not to be a bad `vector`. -/
theorem checkTypes_eq {g : Green} (hp : Parsed g) (env : Env) {e parent n : Elem} {above : List Elem} (hc : Chain g (e :: parent :: above))
    {l : Option Elem} (hw : Writes e n l) (hv : VectorType e n parent → written l = 1) {kind : SyntaxKind} {expected : Nat}
    {label : List Char} (hr : env.generic (e :: parent :: above) = some (kind, expected, some label)) :
    checkTypes env (e :: parent :: above) =
      if kind = .STRUCT ∧ parent.kind = .PATH_TYPE then
        if above.any fun a => decide (a.kind = .ACQUIRES) then []
        else
          match l with
          | some l => checkList label expected l
          | none => if expected ≠ 0 then [⟨countMessage label expected 0, rangeOf e⟩] else []
      else if (kind = .STRUCT ∧ parent.kind = .STRUCT_LIT) ∨ (kind = .SCHEMA ∧ parent.kind = .SCHEMA_LIT) then
        match l with
        | some l => checkList label expected l
        | none => []
      else if [SyntaxKind.FUN, .SPEC_FUN, .SPEC_INLINE_FUN].contains kind then
        if isCalled (e :: parent :: above) e then
          match l with
          | some l => checkList label expected l
          | none => if env.open_ (e :: parent :: above) then [⟨openMessage, rangeOf n⟩] else []
        else []
      else [] := by
  obtain ⟨h1, h2⟩ := writes_holder hw
  have hlen : (((l.map typeArgs).getD []).length) = written l := by cases l <;> rfl
  unfold checkTypes
  dsimp only
  rw [h1]
  dsimp only
  rw [h2, hlen, writes_name hp hc hw, vector_none hc hw rfl hv]
  dsimp only
  rw [hr]
  cases l <;> rfl

/-- **C74 (type arguments, partial).** Where they are checked, the type arguments that are written are reported exactly if their number
is not the number of type parameters, or if there are no type parameters at all. The error is at the list, unless there are too many
type arguments: then there is one at each that is too many. Missing are the places that are not checked: types that are enums, patterns,
constructors of tuple structs, lemmas, and functions that are not called; see the theorems that end in `_fails`. -/
theorem C74_types_partial {g : Green} (hp : Parsed g) (env : Env) {e parent n l : Elem} {above : List Elem}
    (hc : Chain g (e :: parent :: above)) (hw : Writes e n (some l)) (hv : VectorType e n parent → (Args l).length = 1) {kind : SyntaxKind}
    {expected : Nat} {label : List Char} (hr : env.generic (e :: parent :: above) = some (kind, expected, some label))
    (hk : Checked kind e parent above) :
    ListErrors label expected l (checkTypes env (e :: parent :: above)) ∧
      (checkTypes env (e :: parent :: above) = [] ↔ expected ≠ 0 ∧ (Args l).length = expected) := by
  have key : checkTypes env (e :: parent :: above) = checkList label expected l := by
    rw [checkTypes_eq hp env hc hw hv hr]
    cases hk with
    | type h1 h2 h3 =>
      rw [if_pos ⟨h1, h2⟩, if_neg]
      rw [List.any_eq_true]
      rintro ⟨a, h4, h5⟩
      exact h3 a h4 (by simpa using h5)
    | literal h1 h2 => rw [if_neg (by rw [h2]; rintro ⟨-, h⟩; cases h), if_pos (.inl ⟨h1, h2⟩)]
    | schema h1 h2 => rw [if_neg (by rw [h2]; rintro ⟨-, h⟩; cases h), if_pos (.inr ⟨h1, h2⟩)]
    | call h1 h2 =>
      rw [if_neg (by rcases h1 with h | h | h <;> rw [h] <;> rintro ⟨h, -⟩ <;> cases h),
        if_neg (by rcases h1 with h | h | h <;> rw [h] <;> rintro (⟨h, -⟩ | ⟨h, -⟩) <;> cases h),
        if_pos (by rcases h1 with h | h | h <;> rw [h] <;> decide), if_pos ((isCalled_iff (writes_kind hw)).2 h2)]
  rw [key]
  refine ⟨checkList_errors .., ?_⟩
  have h0 : typeArgs l = Args l := rfl
  unfold checkList
  rw [h0]
  constructor
  · intro h
    split at h
    · cases h
    · next h1 =>
      split at h
      · cases h
      · next h2 =>
        rw [List.map_eq_nil_iff, List.drop_eq_nil_iff] at h
        exact ⟨h1, by omega⟩
  · rintro ⟨h1, h2⟩
    rw [if_neg h1, if_neg (by omega), List.drop_eq_nil_of_le (by omega)]
    rfl

/-- **C74 (no type arguments).** A struct that is used as a type without type arguments is reported exactly if it has type parameters,
with one error at the path, but never after `acquires`. A literal and a schema without type arguments are not reported. A call without
them is reported exactly if the inference finds none, with one error at the name. -/
theorem C74_bare {g : Green} (hp : Parsed g) (env : Env) {e parent n : Elem} {above : List Elem} (hc : Chain g (e :: parent :: above))
    (hw : Writes e n none) (hv : ¬ VectorType e n parent) {kind : SyntaxKind} {expected : Nat} {label : List Char}
    (hr : env.generic (e :: parent :: above) = some (kind, expected, some label)) :
    (kind = .STRUCT → parent.kind = .PATH_TYPE → (∃ a ∈ above, a.kind = .ACQUIRES) → checkTypes env (e :: parent :: above) = []) ∧
    (kind = .STRUCT → parent.kind = .PATH_TYPE → (∀ a ∈ above, a.kind ≠ .ACQUIRES) → checkTypes env (e :: parent :: above) =
      if expected = 0 then [] else [⟨typesMessage label expected 0, (e.start, e.stop)⟩]) ∧
    (kind = .STRUCT ∧ parent.kind = .STRUCT_LIT ∨ kind = .SCHEMA ∧ parent.kind = .SCHEMA_LIT → checkTypes env (e :: parent :: above) = []) ∧
    (kind = .FUN ∨ kind = .SPEC_FUN ∨ kind = .SPEC_INLINE_FUN → Called (e :: parent :: above) → checkTypes env (e :: parent :: above) =
      if env.open_ (e :: parent :: above) then
        [⟨"Could not infer this type. Try adding a type annotation".toList, (n.start, n.stop)⟩] else []) := by
  rw [checkTypes_eq hp env hc hw (fun h => absurd h hv) hr]
  refine ⟨fun h1 h2 h3 => ?_, fun h1 h2 h3 => ?_, fun h => ?_, fun h1 h2 => ?_⟩
  · rw [if_pos ⟨h1, h2⟩, if_pos]
    obtain ⟨a, h4, h5⟩ := h3
    exact List.any_eq_true.2 ⟨a, h4, by simp [h5]⟩
  · rw [if_pos ⟨h1, h2⟩, if_neg]
    · by_cases h4 : expected = 0
      · simp [h4]
      · simp only [h4, ne_eq, not_false_eq_true, if_true, if_false]
        rfl
    · rw [List.any_eq_true]
      rintro ⟨a, h4, h5⟩
      exact h3 a h4 (by simpa using h5)
  · have : ¬ (kind = .STRUCT ∧ parent.kind = .PATH_TYPE) := by
      rintro ⟨-, h2⟩
      rcases h with ⟨-, h⟩ | ⟨-, h⟩ <;> rw [h2] at h <;> cases h
    rw [if_neg this, if_pos h]
  · rw [if_neg (by rcases h1 with h | h | h <;> rw [h] <;> rintro ⟨h, -⟩ <;> cases h),
        if_neg (by rcases h1 with h | h | h <;> rw [h] <;> rintro (⟨h, -⟩ | ⟨h, -⟩) <;> cases h),
        if_pos (by rcases h1 with h | h | h <;> rw [h] <;> decide), if_pos ((isCalled_iff (writes_kind hw)).2 h2)]
    rfl

end Verif.Ide.Counts
