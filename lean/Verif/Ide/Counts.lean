import Verif.Ide.Rename
import Verif.Ide.SymbolsCollect
import Verif.Nameres.Path

/-! C74: the errors for wrong numbers of fields (ide-diagnostics/src/handlers/missing_fields.rs), arguments (call_params.rs) and type
arguments (missing_type_arguments.rs). -/

namespace Verif.Ide.Counts
open Verif Verif.Syntax Verif.Nameres
open Verif.Parser (Green)
open Verif.Ide.Rename (exprKinds)
open Verif.Symbols (namedFields)

/-! ### Model -/

/-- What the handlers ask of the database, each of a node with its ancestors: the struct or variant meant by a path
(`resolve_to_element::<FieldsOwner>`), the number of parameters in the type of what is called (`get_call_expr_type`), the number of
parameters of the function of a behavior predicate, what a path or method call means (`resolve_to_element::<GenericElement>`: its
kind, the number of its type parameters, its full name), and whether the inference is asked for and leaves type arguments open
(missing_type_arguments.rs:91–108). -/
structure Env where
  fields : List Elem → Option Elem
  callable : List Elem → Option Nat
  predicate : List Elem → Option Nat
  generic : List Elem → Option (SyntaxKind × Nat × Option (List Char))
  open_ : List Elem → Bool

/-- An error: its message and its range. -/
structure Report where
  message : List Char
  range : Nat × Nat
  deriving DecidableEq, Repr

def rangeOf (e : Elem) : Nat × Nat := (e.start, e.stop)

def digits (n : Nat) : List Char := (toString n).toList

/-- `named_field_names` (syntax/src/ast/node_ext/fields_owner.rs:29–34); `none` is the panic of `field_name` (named_field.rs:26–29). -/
def declaredNames (o : Elem) : Option (List (List Char)) := (namedFields o).mapM bindingName

/-- `StructLit::fields` (struct_lit.rs). -/
def litFields (lit : Elem) : List Elem :=
  match nodeChild lit .STRUCT_LIT_FIELD_LIST with
  | some l => l.children.filter (isNode .STRUCT_LIT_FIELD)
  | none => []

/-- `StructLitField::field_name` (struct_lit_field.rs:72–87). A `PATH_EXPR` without a path panics; here it has no name. -/
def litFieldName (f : Elem) : Option (List Char) :=
  match nodeChild f .NAME_REF with
  | some n => some (nameRefText n)
  | none =>
    match childOf f exprKinds with
    | some e =>
      if e.kind = .PATH_EXPR then
        match nodeChild e .PATH with
        | some p =>
          match pathNameRef p with
          | some n => if (nodeChild p .PATH).isNone then some (nameRefText n) else none
          | none => none
        | none => none
      else none
    | none => none

/-- `StructPat::fields` (struct_pat.rs). -/
def patFields (pat : Elem) : List Elem :=
  match nodeChild pat .STRUCT_PAT_FIELD_LIST with
  | some l => l.children.filter (isNode .STRUCT_PAT_FIELD)
  | none => []

/-- `StructPatField::field_name` (struct_pat_field.rs:10–52). -/
def patFieldName (f : Elem) : Option (List Char) :=
  match nodeChild f .NAME_REF with
  | some n => some (nameRefText n)
  | none =>
    match nodeChild f .IDENT_PAT with
    | some i => bindingName i
    | none => none

/-- missing_fields.rs:28–33 and 86–91. -/
def missing (declared given : List (List Char)) : List (List Char) := declared.filter fun d => !given.contains d

/-- The names in backquotes, with commas between them (missing_fields.rs:48–52). -/
def quoted : List (List Char) → List Char
  | [] => []
  | [n] => '`' :: n ++ ['`']
  | n :: ns => '`' :: n ++ "`, ".toList ++ quoted ns

/-- missing_fields.rs:36–57. -/
def litMessage (path : List Char) (names : List (List Char)) : List Char :=
  (if names.length = 1 then "Missing field for `" else "Missing fields for `").toList ++ path ++ "` initializer: ".toList ++ quoted names

/-- missing_fields.rs:10–65; `none` is a panic. -/
def checkLit (env : Env) : List Elem → Option (List Report)
  | [] => some []
  | lit :: up =>
    match nodeChild lit .PATH with
    | none => none
    | some p =>
      match env.fields (p :: lit :: up) with
      | none => some []
      | some o =>
        (declaredNames o).map fun d =>
          let m := missing d ((litFields lit).filterMap litFieldName)
          if m.isEmpty then [] else [⟨litMessage p.green.text m, rangeOf p⟩]

/-- missing_fields.rs:93–96. -/
def ownerWord (o : Elem) : List Char := (if o.kind = .VARIANT then "Enum variant" else "Struct").toList

/-- missing_fields.rs:98–113. -/
def patMessage (o : Elem) (names : List (List Char)) : List Char :=
  ownerWord o ++ (if names.length = 1 then " pattern does not mention field " else " pattern does not mention fields ").toList ++ quoted names

/-- missing_fields.rs:68–122. -/
def checkPat (env : Env) : List Elem → Option (List Report)
  | [] => some []
  | pat :: up =>
    if (patFields pat).any fun f => (nodeChild f .REST_PAT).isSome then some []
    else
      match nodeChild pat .PATH with
      | none => none
      | some p =>
        match env.fields (p :: pat :: up) with
        | none => some []
        | some o =>
          (declaredNames o).map fun d =>
            let m := missing d ((patFields pat).filterMap patFieldName)
            if m.isEmpty then [] else [⟨patMessage o m, rangeOf pat⟩]

/-- `tuple_fields` (fields_owner.rs:53–57). -/
def tupleFields (o : Elem) : List Elem :=
  match o.children.find? fun c => isNode .NAMED_FIELD_LIST c || isNode .TUPLE_FIELD_LIST c with
  | some l => if isNode .TUPLE_FIELD_LIST l then l.children.filter (isNode .TUPLE_FIELD) else []
  | none => []

/-- `TupleStructPat::fields` (generated/nodes.rs:2003). -/
def tuplePats (pat : Elem) : List Elem := pat.children.filter fun c => !c.green.isTok && patKinds.contains c.kind

/-- missing_fields.rs:125–160. -/
def checkTuple (env : Env) : List Elem → Option (List Report)
  | [] => some []
  | pat :: up =>
    if (tuplePats pat).any fun q => decide (q.kind = .REST_PAT) then some []
    else
      match nodeChild pat .PATH with
      | none => none
      | some p =>
        match env.fields (p :: pat :: up) with
        | none => some []
        | some o =>
          if (tuplePats pat).length < (tupleFields o).length then
            some [⟨ownerWord o ++ " pattern does not match its declaration: expected ".toList ++ digits (tupleFields o).length ++
              " fields, found ".toList ++ digits (tuplePats pat).length, rangeOf pat⟩]
          else some []

/-- What call_params.rs:29–66 finds: nothing, a panic, or the least and the greatest number of arguments. -/
inductive Bounds where
  | unknown
  | panics
  | between (lo hi : Nat)
  deriving DecidableEq, Repr

/-- `assert_kind` (assert_macro_expr.rs:17–25) with call_params.rs:46–50. -/
def assertBounds (word : Option (List Char)) : Bounds :=
  match word with
  | none => .panics
  | some w =>
    if ["assert".toList, "debug_assert".toList].contains w then .between 1 6
    else if ["assert_eq".toList, "debug_assert_eq".toList].contains w then .between 2 7
    else if ["assert_ne".toList, "debug_assert_ne".toList].contains w then .between 2 7
    else .panics

/-- call_params.rs:29–66, of a call with its ancestors. The subtraction for a method panics in debug builds; a release build would
wrap around. -/
def bounds (env : Env) : List Elem → Bounds
  | [] => .unknown
  | c :: up =>
    if c.kind = .ASSERT_MACRO_EXPR then assertBounds ((tokenChild c .IDENT).map fun t => t.green.text)
    else if c.kind = .METHOD_CALL_EXPR then
      match env.callable (c :: up) with
      | none => .unknown
      | some 0 => .panics
      | some (n + 1) => .between n n
    else if c.kind = .BEHAVIOR_PREDICATE_EXPR then
      match env.predicate (c :: up) with
      | none => .unknown
      | some n => .between n n
    else
      match env.callable (c :: up) with
      | none => .unknown
      | some n => .between n n

/-- call_params.rs:69–73, 79 and 90. -/
def argMessage (lo hi n : Nat) : List Char :=
  "This function takes ".toList ++ (if lo = hi then digits lo else digits lo ++ " to ".toList ++ digits hi) ++
    " parameters, but ".toList ++ digits n ++ " parameters were supplied".toList

/-- call_params.rs:14–99. -/
def checkArgs (env : Env) : List Elem → Option (List Report)
  | [] => some []
  | c :: up =>
    match nodeChild c .VALUE_ARG_LIST with
    | none => some []
    | some l =>
      match (l.children.filter (isNode .VALUE_ARG)).mapM fun a => childOf a exprKinds with
      | none => some []
      | some es =>
        match bounds env (c :: up) with
        | .unknown => some []
        | .panics => none
        | .between lo hi =>
          if es.length < lo then
            some [⟨argMessage lo hi es.length, rangeOf ((tokenChild l .R_PAREN).getD l)⟩]
          else if hi < es.length then
            match es.drop hi with
            | e :: _ => some [⟨argMessage lo hi es.length, rangeOf e⟩]
            | [] => some []
          else some []

/-- missing_type_arguments.rs:164–178. -/
def countMessage (label : List Char) (expected actual : Nat) : List Char :=
  "Invalid instantiation of '".toList ++ label ++ "'. Expected ".toList ++ digits expected ++ " type argument(s), but got ".toList ++
    digits actual

/-- missing_type_arguments.rs:180–187. -/
def noneMessage (label : List Char) : List Char := "No type arguments expected for '".toList ++ label ++ ['\'']

/-- missing_type_arguments.rs:189–195. -/
def openMessage : List Char := "Could not infer this type. Try adding a type annotation".toList

/-- `type_args` (type_arg_list.rs:19–21). -/
def typeArgs (l : Elem) : List Elem := l.children.filter (isNode .TYPE_ARG)

/-- `check_type_arg_list` (missing_type_arguments.rs:126–162). -/
def checkList (label : List Char) (expected : Nat) (l : Elem) : List Report :=
  if expected = 0 then [⟨noneMessage label, rangeOf l⟩]
  else if (typeArgs l).length < expected then [⟨countMessage label expected (typeArgs l).length, rangeOf l⟩]
  else ((typeArgs l).drop expected).map fun a => ⟨countMessage label expected (typeArgs l).length, rangeOf a⟩

/-- `MethodOrPath::name_ref` and `type_arg_list` (method_or_path.rs:17–29): what holds the name and the type arguments. -/
def holder (e : Elem) : Option Elem := if e.kind = .METHOD_CALL_EXPR then some e else nodeChild e .PATH_SEGMENT

/-- missing_type_arguments.rs:29–50: the error for `vector`, of a path with its ancestors. -/
def vectorReport (site : List Elem) (e : Elem) (name : List Char) (actual : Nat) : Option Report :=
  if e.kind ≠ .METHOD_CALL_EXPR ∧ name = "vector".toList ∧ ((rootPath site).head?.any fun r => (nodeChild r .PATH).isNone) = true ∧
      rootParentKind site = some .PATH_TYPE ∧ actual ≠ 1 then
    some ⟨countMessage "vector".toList 1 actual, rangeOf e⟩
  else none

/-- missing_type_arguments.rs:79–88: the path or method call is called. -/
def isCalled (site : List Elem) (e : Elem) : Bool :=
  e.kind = .METHOD_CALL_EXPR ||
    match (rootPath site).tail with
    | x :: c :: _ => decide (x.kind = .PATH_EXPR) && decide (c.kind = .CALL_EXPR)
    | _ => false

/-- missing_type_arguments.rs:17–124, of a path or method call with its ancestors. -/
def checkTypes (env : Env) : List Elem → List Report
  | [] => []
  | e :: up =>
    match (holder e).bind fun h => nodeChild h .NAME_REF with
    | none => []
    | some n =>
      let list := (holder e).bind fun h => nodeChild h .TYPE_ARG_LIST
      let actual := ((list.map typeArgs).getD []).length
      match vectorReport (e :: up) e (nameRefText n) actual with
      | some r => [r]
      | none =>
        match up with
        | [] => []
        | parent :: above =>
          match env.generic (e :: up) with
          | some (kind, expected, some label) =>
            if kind = .STRUCT ∧ parent.kind = .PATH_TYPE then
              if above.any fun a => decide (a.kind = .ACQUIRES) then []
              else
                match list with
                | some l => checkList label expected l
                | none => if expected ≠ 0 then [⟨countMessage label expected actual, rangeOf e⟩] else []
            else if (kind = .STRUCT ∧ parent.kind = .STRUCT_LIT) ∨ (kind = .SCHEMA ∧ parent.kind = .SCHEMA_LIT) then
              match list with
              | some l => checkList label expected l
              | none => []
            else if [SyntaxKind.FUN, .SPEC_FUN, .SPEC_INLINE_FUN].contains kind then
              if isCalled (e :: up) e then
                match list with
                | some l => checkList label expected l
                | none => if env.open_ (e :: up) then [⟨openMessage, rangeOf n⟩] else []
              else []
            else []
          | _ => []

end Verif.Ide.Counts
