import Verif.Ide.CountsArgs
import Verif.Ide.UsageScope

/-! C74: examples, and what is not reported. -/

namespace Verif.Ide.Counts
open Verif Verif.Syntax Verif.Nameres
open Verif.Parser (Green)
open Verif.Ide.Rename (exprKinds)
open Verif.Ide.Usages (Parsed parseOf tokenAt parseOf_parsed)
open Verif.Symbols (namedFields FieldList)
open Verif.Nameres.Full (Is isNode_iff nodeChild_mem)

/-- The declaration of one of the kinds with that name. -/
def named (g : Green) (kinds : List SyntaxKind) (w : Option (List Char)) : Option Elem :=
  (⟨[], 0, g⟩ : Elem).descendants.find? fun d => kinds.contains d.kind && w.isSome && decide (bindingName d = w)

/-- How many parts of a kind there are in the list of a declaration. -/
def countIn (d : Elem) (list item : SyntaxKind) : Nat := ((nodeChild d list).map fun l => (l.children.filter (isNode item)).length).getD 0

/-- One file, in which everything has its own name. -/
def byName (g : Green) : Env where
  fields site := site.head?.bind fun p => named g [.STRUCT, .VARIANT] (refName p)
  callable site := site.head?.bind fun c =>
    (named g [.FUN] (if c.kind = .METHOD_CALL_EXPR then (nodeChild c .NAME_REF).map nameRefText
      else (nodeChild c .PATH_EXPR).bind fun x => (nodeChild x .PATH).bind refName)).map fun f => countIn f .PARAM_LIST .PARAM
  predicate _ := none
  generic site := site.head?.bind fun e =>
    let w := if e.kind = .METHOD_CALL_EXPR then (nodeChild e .NAME_REF).map nameRefText else refName e
    (named g [.STRUCT, .ENUM, .FUN, .SCHEMA] w).map fun d => (d.kind, countIn d .TYPE_PARAM_LIST .TYPE_PARAM, w)
  open_ _ := false

/-- The nearest node of the kind around a token, with its ancestors. -/
def around (text : List Char) (n : Nat) (k : SyntaxKind) : List Elem := (tokenAt (parseOf text).1 n).dropWhile fun e => decide (e.kind ≠ k)

def litAt (text : List Char) (n : Nat) : Option (List Report) := checkLit (byName (parseOf text).1) (around text n .STRUCT_LIT)
def patAt (text : List Char) (n : Nat) : Option (List Report) := checkPat (byName (parseOf text).1) (around text n .STRUCT_PAT)
def tupleAt (text : List Char) (n : Nat) : Option (List Report) := checkTuple (byName (parseOf text).1) (around text n .TUPLE_STRUCT_PAT)
def argsAt (text : List Char) (n : Nat) (k : SyntaxKind) : Option (List Report) := checkArgs (byName (parseOf text).1) (around text n k)
def typesAt (text : List Char) (n : Nat) : List Report := checkTypes (byName (parseOf text).1) (around text n .PATH)

def litText : List Char := "module 0x1::m{struct S{a:u8,b:u8,c:u8}fun f(){S{b};S{a:1,c:2};S{a:1,b:2,c:3};}}".toList
def patText : List Char := "module 0x1::m{enum E{A{a:u8,b:u8}}fun f(e:E){match(e){E::A{a}=>1,E::A{b,..}=>2}}}".toList
def tupleText : List Char := "module 0x1::m{struct S(u8,u8);fun f(s:S){let S(a)=s;let S(a,b)=s;let S(..)=s;}}".toList
def argText : List Char := "module 0x1::m{fun g(a:u8,b:u8){}fun f(){g(1);g(1,2);g(1,2,3,4);1.g(2);assert!();assert_eq!(1);}}".toList
def typeText : List Char := "module 0x1::m{struct S<T>{}struct R{}fun g<T>(){}fun f(a:S,b:S<u8>,c:S<u8,u8>,d:R<u8>,e:vector<>){g<u8,u8>();}}".toList
def moreText : List Char := "module 0x1::m{struct S(u8);fun f(s:S){let S(a,b)=s;}}".toList
def againText : List Char := "module 0x1::m{struct S{a:u8}fun f(){S{a:1,a:2};}}".toList
def enumText : List Char := "module 0x1::m{enum E<T>{A}struct S<T>{}fun f(e:E<u8,u8>,s:S<u8,u8>){}}".toList
def patTypeText : List Char := "module 0x1::m{struct S<T>{x:T}struct R<T>(T);fun f(){let S<u8,u8>{x}=s;R<u8,u8>(1);}}".toList

/-! ### What is not reported -/

/-- **C74 fails for tuple patterns with too many fields.** The struct has one field, the pattern has two, and nothing is reported. -/
theorem C74_tuple_fails : (parseOf moreText).2 = true ∧
    ((named (parseOf moreText).1 [.STRUCT] (some ['S'])).map fun o => (tupleFields o).length) = some 1 ∧
    ((around moreText 24 .TUPLE_STRUCT_PAT).head?.map fun p => (Inner p).length) = some 2 ∧ tupleAt moreText 24 = some [] := by decide +kernel

/-- **C74 fails for fields that are given twice.** The literal gives the field `a` two times, and nothing is reported. -/
theorem C74_repeated_fails : (parseOf againText).2 = true ∧
    ((around againText 20 .STRUCT_LIT).head?.map fun l => (litFields l).filterMap litFieldName) = some [['a'], ['a']] ∧
    ((named (parseOf againText).1 [.STRUCT] (some ['S'])).bind declaredNames) = some [['a']] ∧ litAt againText 20 = some [] := by decide +kernel

/-- The number of type arguments at a name. -/
def argCount (text : List Char) (n : Nat) : Option Nat :=
  (around text n .PATH).head?.bind fun e => ((holder e).bind fun h => nodeChild h .TYPE_ARG_LIST).map fun l => (Args l).length

/-- **C74 fails for enums.** An enum and a struct with one type parameter are used as types with two type arguments; the struct is
reported and the enum is not. -/
theorem C74_enum_fails : (parseOf enumText).2 = true ∧ argCount enumText 29 = some 2 ∧ argCount enumText 38 = some 2 ∧
    (byName (parseOf enumText).1).generic (around enumText 29 .PATH) = some (.ENUM, 1, some ['E']) ∧
    (byName (parseOf enumText).1).generic (around enumText 38 .PATH) = some (.STRUCT, 1, some ['S']) ∧
    typesAt enumText 29 = [] ∧
    typesAt enumText 38 = [⟨"Invalid instantiation of 'S'. Expected 1 type argument(s), but got 2".toList, (63, 65)⟩] := by decide +kernel

/-- **C74 fails for patterns and constructors.** The structs have one type parameter. The pattern and the constructor have two type
arguments, and nothing is reported. -/
theorem C74_unpack_fails : (parseOf patTypeText).2 = true ∧ argCount patTypeText 35 = some 2 ∧ argCount patTypeText 47 = some 2 ∧
    (byName (parseOf patTypeText).1).generic (around patTypeText 35 .PATH) = some (.STRUCT, 1, some ['S']) ∧
    (byName (parseOf patTypeText).1).generic (around patTypeText 47 .PATH) = some (.STRUCT, 1, some ['R']) ∧
    typesAt patTypeText 35 = [] ∧ typesAt patTypeText 47 = [] := by decide +kernel

/-! ### Examples that meet the hypotheses -/

example : litAt litText 28 = some [⟨"Missing fields for `S` initializer: `a`, `c`".toList, (46, 47)⟩] ∧
    litAt litText 33 = some [⟨"Missing field for `S` initializer: `b`".toList, (51, 52)⟩] ∧ litAt litText 44 = some [] := by decide +kernel

example : patAt patText 37 = some [⟨"Enum variant pattern does not mention field `b`".toList, (54, 61)⟩] ∧ patAt patText 46 = some [] := by
  decide +kernel

example : tupleAt tupleText 26 = some [⟨"Struct pattern does not match its declaration: expected 2 fields, found 1".toList, (45, 49)⟩] ∧
    tupleAt tupleText 35 = some [] ∧ tupleAt tupleText 46 = some [] := by decide +kernel

example : argsAt argText 26 .CALL_EXPR = some [⟨"This function takes 2 parameters, but 1 parameters were supplied".toList, (43, 44)⟩] ∧
    argsAt argText 31 .CALL_EXPR = some [] ∧
    argsAt argText 38 .CALL_EXPR = some [⟨"This function takes 2 parameters, but 4 parameters were supplied".toList, (58, 59)⟩] ∧
    argsAt argText 51 .METHOD_CALL_EXPR = some [] ∧
    argsAt argText 56 .ASSERT_MACRO_EXPR = some [⟨"This function takes 1 to 6 parameters, but 0 parameters were supplied".toList, (78, 79)⟩] ∧
    argsAt argText 61 .ASSERT_MACRO_EXPR = some [⟨"This function takes 2 to 7 parameters, but 1 parameters were supplied".toList, (92, 93)⟩] := by
  decide +kernel

/-- A method without parameters, which name resolution would not find. -/
example : argsAt "module 0x1::m{fun g(){}fun f(){1.g();}}".toList 21 .METHOD_CALL_EXPR = none ∧
    ((around "module 0x1::m{fun g(){}fun f(){1.g();}}".toList 21 .METHOD_CALL_EXPR).head?.bind fun c =>
      (nodeChild c .VALUE_ARG_LIST).map fun l => l.children.length) = some 2 := by decide +kernel

example : typesAt typeText 35 = [⟨"Invalid instantiation of 'S'. Expected 1 type argument(s), but got 0".toList, (57, 58)⟩] ∧
    typesAt typeText 39 = [] ∧
    typesAt typeText 46 = [⟨"Invalid instantiation of 'S'. Expected 1 type argument(s), but got 2".toList, (74, 76)⟩] ∧
    typesAt typeText 55 = [⟨"No type arguments expected for 'R'".toList, (81, 85)⟩] ∧
    typesAt typeText 62 = [⟨"Invalid instantiation of 'vector'. Expected 1 type argument(s), but got 0".toList, (88, 96)⟩] ∧
    typesAt typeText 67 = [⟨"Invalid instantiation of 'g'. Expected 1 type argument(s), but got 2".toList, (103, 105)⟩] := by decide +kernel

theorem around_chain {text : List Char} {n : Nat} {k : SyntaxKind} {e : Elem} {up : List Elem} (h : around text n k = e :: up) :
    Chain (parseOf text).1 (e :: up) := by
  unfold around tokenAt at h
  have hs : (e :: up) <:+ (allTokens (parseOf text).1).getD n [] := h ▸ List.dropWhile_suffix _
  obtain ⟨pre, hpre⟩ := hs
  have hm : (allTokens (parseOf text).1).getD n [] ∈ allTokens (parseOf text).1 := by
    rw [List.getD_eq_getElem?_getD] at hpre ⊢
    cases hx : (allTokens (parseOf text).1)[n]? with
    | none => rw [hx] at hpre; simp at hpre
    | some x => exact List.mem_of_getElem? hx
  obtain ⟨t, m, h1, h2, -⟩ := (mem_allTokens _ _).1 hm
  rw [← hpre] at h1
  rw [← h1] at h2
  exact chain_suffix h2

theorem named_chain {g : Green} {ks : List SyntaxKind} {w : Option (List Char)} {o : Elem} (h : named g ks w = some o) :
    ∃ up, Chain g (o :: up) := by
  obtain ⟨mid, h1, -⟩ := chain_descendant (g := g) (p := ⟨[], 0, g⟩) (l := []) .top (List.mem_of_find?_eq_some h)
  exact ⟨_, h1⟩

theorem fieldNames_of {g : Green} (hp : Parsed g) {o : Elem} {up : List Elem} (hc : Chain g (o :: up)) {names : List (List Char)}
    (h : declaredNames o = some names) : FieldNames o names := by
  by_cases hl : ∃ l, FieldList o l
  · obtain ⟨l, hl⟩ := hl
    refine .inl ⟨l, hl, ?_⟩
    rw [declaredNames, fieldList_find hl] at h
    have hch : ∀ f ∈ l.children.filter (isNode .NAMED_FIELD), ∃ u, Chain g (f :: u) := by
      intro f hf
      obtain ⟨pre, post, h2, -⟩ := hl
      exact ⟨_, .child (.child hc (by rw [h2]; simp)) (List.mem_filter.1 hf).1⟩
    revert h hch
    generalize l.children.filter (isNode .NAMED_FIELD) = fs
    intro h hch
    induction fs generalizing names with
    | nil => cases h; exact .nil
    | cons f fs ih =>
      rw [List.mapM_cons] at h
      obtain ⟨w, hw, h⟩ := Option.bind_eq_some_iff.1 h
      obtain ⟨ws, hws, h⟩ := Option.bind_eq_some_iff.1 h
      cases h
      refine .cons ?_ (ih hws fun f hf => hch f (List.mem_cons_of_mem _ hf))
      obtain ⟨u, hu⟩ := hch f (List.mem_cons_self ..)
      cases hx : nodeChild f .NAME with
      | none => simp [bindingName, hx] at hw
      | some n =>
        have hn := nodeChild_iff.1 hx
        exact ⟨n, hn, by rw [name_text hp hu hn] at hw; exact Option.some.inj hw⟩
  · refine .inr ⟨fun l h => hl ⟨l, h⟩, ?_⟩
    have : namedFields o = [] := by
      rw [List.eq_nil_iff_forall_not_mem]
      intro f hf
      obtain ⟨l, h1, -⟩ := (Verif.Symbols.fieldList_iff o f).1 hf
      exact hl ⟨l, h1⟩
    rw [declaredNames, this] at h
    cases h
    rfl

/-- The hypotheses of `C74_literal` are met by the first literal, which leaves out the field `a`. -/
example : ∃ (g : Green) (env : Env) (lit p o : Elem) (up up' : List Elem) (names : List (List Char)), Parsed g ∧ Chain g (lit :: up) ∧
    First [.PATH] lit p ∧ env.fields (p :: lit :: up) = some o ∧ Chain g (o :: up') ∧ FieldNames o names ∧ ∃ w ∈ names, ¬ Gives lit w := by
  have h : (match around litText 28 .STRUCT_LIT with
    | lit :: _ => match nodeChild lit .PATH with
      | some p => match named (parseOf litText).1 [.STRUCT, .VARIANT] (refName p) with
        | some o => decide (declaredNames o = some [['a'], ['b'], ['c']]) && !((litFields lit).filterMap litFieldName).contains ['a']
        | none => false
      | none => false
    | [] => false) = true := by decide +kernel
  have hp : Parsed (parseOf litText).1 := parseOf_parsed (by decide +kernel) (by decide +kernel)
  split at h <;> [skip; cases h]
  next lit up hs =>
  split at h <;> [skip; cases h]
  next p hpath =>
  split at h <;> [skip; cases h]
  next o ho =>
  rw [Bool.and_eq_true, decide_eq_true_eq, Bool.not_eq_true', List.contains_eq_mem, decide_eq_false_iff_not] at h
  obtain ⟨up', hup⟩ := named_chain ho
  have hc := around_chain hs
  exact ⟨_, byName (parseOf litText).1, lit, p, o, up, up', _, hp, hc, nodeChild_iff.1 hpath, ho, hup, fieldNames_of hp hup h.1,
    ['a'], by simp, fun hg => h.2 ((mem_given hp hc _).2 hg)⟩

/-- The hypotheses of `C74_pattern` are met by the first pattern, which does not mention the field `b`. -/
example : ∃ (g : Green) (env : Env) (pat p o : Elem) (up up' : List Elem) (names : List (List Char)), Parsed g ∧ Chain g (pat :: up) ∧
    First [.PATH] pat p ∧ env.fields (p :: pat :: up) = some o ∧ Chain g (o :: up') ∧ o.kind = .VARIANT ∧ FieldNames o names ∧ ¬ Rest pat ∧
    ∃ w ∈ names, ¬ Mentions pat w := by
  have h : (match around patText 37 .STRUCT_PAT with
    | pat :: _ => match nodeChild pat .PATH with
      | some p => match named (parseOf patText).1 [.STRUCT, .VARIANT] (refName p) with
        | some o => decide (declaredNames o = some [['a'], ['b']]) && !((patFields pat).filterMap patFieldName).contains ['b'] &&
          decide (o.kind = .VARIANT) && !((patFields pat).any fun f => (nodeChild f .REST_PAT).isSome)
        | none => false
      | none => false
    | [] => false) = true := by decide +kernel
  have hp : Parsed (parseOf patText).1 := parseOf_parsed (by decide +kernel) (by decide +kernel)
  split at h <;> [skip; cases h]
  next pat up hs =>
  split at h <;> [skip; cases h]
  next p hpath =>
  split at h <;> [skip; cases h]
  next o ho =>
  simp only [Bool.and_eq_true, decide_eq_true_eq, Bool.not_eq_true', List.contains_eq_mem, decide_eq_false_iff_not] at h
  obtain ⟨⟨⟨h1, h2⟩, h3⟩, h4⟩ := h
  obtain ⟨up', hup⟩ := named_chain ho
  have hc := around_chain hs
  exact ⟨_, byName (parseOf patText).1, pat, p, o, up, up', _, hp, hc, nodeChild_iff.1 hpath, ho, hup, h3, fieldNames_of hp hup h1,
    (fun hr => by rw [rest_iff.2 hr] at h4; cases h4), ['b'], by simp, fun hg => h2 ((mem_mentioned hp hc _).2 hg)⟩

theorem args_of : ∀ {as es : List Elem}, (as.mapM fun a => childOf a exprKinds) = some es →
    List.Forall₂ (fun a e => First exprKinds a e) as es
  | [], es, h => by cases h; exact .nil
  | a :: as, es, h => by
    rw [List.mapM_cons] at h
    obtain ⟨w, hw, h⟩ := Option.bind_eq_some_iff.1 h
    obtain ⟨ws, hws, h⟩ := Option.bind_eq_some_iff.1 h
    cases h
    exact .cons (childOf_iff.1 hw) (args_of hws)

/-- The hypotheses of `C74_arguments` are met by the call with four arguments of the function with two parameters. -/
example : ∃ (env : Env) (c l : Elem) (up es : List Elem), First [.VALUE_ARG_LIST] c l ∧ Arguments l es ∧ Takes env c up 2 2 ∧ es.length = 4 := by
  have h : (match around argText 38 .CALL_EXPR with
    | c :: up => match nodeChild c .VALUE_ARG_LIST with
      | some l => match (l.children.filter (isNode .VALUE_ARG)).mapM fun a => childOf a exprKinds with
        | some es => decide (c.kind = .CALL_EXPR) && decide ((byName (parseOf argText).1).callable (c :: up) = some 2) && decide (es.length = 4)
        | none => false
      | none => false
    | [] => false) = true := by decide +kernel
  split at h <;> [skip; cases h]
  next c up hs =>
  split at h <;> [skip; cases h]
  next l hl =>
  split at h <;> [skip; cases h]
  next es he =>
  simp only [Bool.and_eq_true, decide_eq_true_eq] at h
  exact ⟨_, c, l, up, es, nodeChild_iff.1 hl, args_of he, .call (.inl h.1.1) h.1.2, h.2⟩

/-- The hypotheses of `C74_types_partial` are met by the type with two type arguments. -/
example : ∃ (g : Green) (env : Env) (e parent n l : Elem) (above : List Elem), Parsed g ∧ Chain g (e :: parent :: above) ∧ Writes e n (some l) ∧
    (VectorType e n parent → (Args l).length = 1) ∧ env.generic (e :: parent :: above) = some (.STRUCT, 1, some ['S']) ∧
    Checked .STRUCT e parent above ∧ (Args l).length = 2 := by
  have h : (match around typeText 46 .PATH with
    | e :: parent :: above => match nodeChild e .PATH_SEGMENT with
      | some s => match nodeChild s .NAME_REF, nodeChild s .TYPE_ARG_LIST with
        | some n, some l => decide (e.kind = .PATH) && decide ((byName (parseOf typeText).1).generic (e :: parent :: above) =
            some (.STRUCT, 1, some ['S'])) && decide ((Args l).length = 2) && decide (parent.kind = .PATH_TYPE) &&
            decide (n.green.text = ['S']) && above.all fun a => decide (a.kind ≠ .ACQUIRES)
        | _, _ => false
      | none => false
    | _ => false) = true := by decide +kernel
  have hp : Parsed (parseOf typeText).1 := parseOf_parsed (by decide +kernel) (by decide +kernel)
  split at h <;> [skip; cases h]
  next e parent above hs =>
  split at h <;> [skip; cases h]
  next s hseg =>
  split at h <;> [skip; cases h]
  next n l hn hl =>
  simp only [Bool.and_eq_true, decide_eq_true_eq, List.all_eq_true] at h
  obtain ⟨⟨⟨⟨⟨h1, h2⟩, h3⟩, h4⟩, h5⟩, h6⟩ := h
  refine ⟨_, _, e, parent, n, l, above, hp, around_chain hs, .path h1 (nodeChild_iff.1 hseg) (nodeChild_iff.1 hn) (nodeChild_iff.1 hl),
    fun hv => ?_, h2, .type rfl h4 h6, h3⟩
  have := hv.2.1
  rw [h5] at this
  exact absurd this (by decide)

end Verif.Ide.Counts
