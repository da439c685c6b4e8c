import Verif.Types.Ty

/-! C77: how types are written in messages and hints (lang/src/types/render.rs). -/

namespace Verif.Types.Render
open Verif.Types

/-! ### Model -/

/-- The parts of `ItemFQName::Item` (lang/src/nameres/fq_named_element.rs:15–24), with the address as its `identifier_text`
(address.rs:49–54), and the package of the file. -/
structure Fq where
  addr : List Char
  module : List Char
  name : List Char
  package : Nat
deriving DecidableEq, Repr

/-- What the database knows: the full names of structs, enums and schemas (`fq_name`), and the names of type parameters. That a
location finds its declaration (`unwrap`, render.rs:176 and 183) is taken for granted. -/
structure Names where
  fq : Loc → Option Fq
  param : Loc → Option (List Char)

/-- `TypeRendererConfig` (render.rs:34–63), with the package of the current file. -/
structure Mode where
  here : Option Nat
  origin : Bool
  unknown : List Char
  never : List Char

/-- `for_tests(None)` (render.rs:42–44), which `render_ty` (semantics.rs:205–207) uses for messages. -/
def messages : Mode := ⟨none, false, "<unknown>".toList, "<never>".toList⟩

/-- `for_inlay_hints` (render.rs:46–48). -/
def hints (package : Nat) : Mode := ⟨some package, true, ['?'], ['!']⟩

def sep : List Char := [':', ':']

/-- `fq_identifier_text` (fq_named_element.rs:47–58). -/
def Fq.full (f : Fq) : List Char := f.addr ++ sep ++ (f.module ++ sep ++ f.name)

/-- `module_and_item_text` (fq_named_element.rs:60–68). -/
def Fq.short (f : Fq) : List Char := f.module ++ sep ++ f.name

/-- render.rs:218–222. -/
def wellKnown : List (List Char) :=
  ["std".toList, "aptos_std".toList, "aptos_framework".toList, "aptos_token".toList, "aptos_experimental".toList]

/-- `render_fq_name` (render.rs:203–239). -/
def itemText (n : Names) (m : Mode) (l : Loc) : List Char :=
  match n.fq l with
  | none => m.unknown
  | some f =>
    match m.here with
    | none => f.full
    | some p => if wellKnown.contains f.addr || decide (f.package = p) then f.name else f.short

/-- `origin_loc_name` (render.rs:241–247). -/
def paramText (n : Names) (m : Mode) (l : Loc) : List Char := (n.param l).getD m.unknown

/-- `Display for IntegerKind` (ty/integer.rs:70–78). -/
def intText : IntKind → List Char
  | .Integer => "integer".toList
  | .U8 => "u8".toList
  | .U16 => "u16".toList
  | .U32 => "u32".toList
  | .U64 => "u64".toList
  | .U128 => "u128".toList
  | .U256 => "u256".toList
  | .I8 => "i8".toList
  | .I16 => "i16".toList
  | .I32 => "i32".toList
  | .I64 => "i64".toList
  | .I128 => "i128".toList
  | .I256 => "i256".toList

/-- `render_ty_var` (render.rs:132–144). -/
def varText (n : Names) (m : Mode) : TyVar → List Char
  | .anonymous i => "?_".toList ++ (toString i).toList
  | .withOrigin l i => if m.origin then paramText n m l else '?' :: paramText n m l ++ '_' :: (toString i).toList

def arrow : List Char := " -> ".toList

mutual
/-- `render` (render.rs:82–126). -/
def render (n : Names) (m : Mode) : Ty → List Char
  | .unknown => m.unknown
  | .never => m.never
  | .unit => "()".toList
  | .bool => "bool".toList
  | .signer => "signer".toList
  | .address => "address".toList
  | .integer k => intText k
  | .num => "num".toList
  | .bv => "bv".toList
  | .vector t => "vector".toList ++ ('<' :: (render n m t ++ ['>']))
  | .range t => "range".toList ++ ('<' :: (render n m t ++ ['>']))
  | .var v => varText n m v
  | .intVar _ => "?integer".toList
  | .typeParam l => paramText n m l
  | .ref t mut' => '&' :: ((if mut' then "mut ".toList else []) ++ render n m t)
  | .adt l _ _ args => itemText n m l ++ renderArgs n m args
  | .callable ps r k _ _ _ =>
    match k with
    | .Named => "fn".toList ++ ('(' :: (renderList n m ps ++ ')' :: (if r = .unit then [] else arrow ++ render n m r)))
    | .Lambda => '|' :: (renderList n m ps ++ '|' :: (arrow ++ render n m r))
    | .Predicate => "fn_predicate".toList ++ ('(' :: (renderList n m ps ++ ')' :: (if r = .unit then [] else arrow ++ render n m r)))
  | .tuple ts => '(' :: (renderList n m ts ++ [')'])
  | .schema l _ _ args => itemText n m l ++ renderArgs n m args
/-- `render_type_args` (render.rs:188–193). -/
def renderArgs (n : Names) (m : Mode) : List Ty → List Char
  | [] => []
  | t :: ts => '<' :: (render n m t ++ renderMore n m ts ++ ['>'])
/-- `render_type_list` (render.rs:195–205) without its delimiters. -/
def renderList (n : Names) (m : Mode) : List Ty → List Char
  | [] => []
  | t :: ts => render n m t ++ renderMore n m ts
/-- The rest of a list. -/
def renderMore (n : Names) (m : Mode) : List Ty → List Char
  | [] => []
  | t :: ts => ',' :: ' ' :: (render n m t ++ renderMore n m ts)
end

/-- The message of a mismatch, if any (ide-diagnostics/src/handlers/type_checking.rs:94–111). -/
def mismatch (n : Names) (actual expected : Ty) : Option (List Char) :=
  let a := render n messages actual
  let e := render n messages expected
  if a = e then none
  else some ("Incompatible type '".toList ++ a ++ "', expected '".toList ++ e ++ ['\''])

/-! ### Specification -/

/-- The parts of a type that a reader sees. -/
def parts : Ty → List Ty
  | .vector t => [t]
  | .range t => [t]
  | .ref t _ => [t]
  | .adt _ _ _ args => args
  | .schema _ _ _ args => args
  | .callable ps r _ _ _ _ => ps ++ [r]
  | .tuple ts => ts
  | _ => []

/-- Two types are the same apart from their parts: structs and enums are the same by their full name, type parameters by their name,
and integers of a type that is not known yet are not told apart. -/
inductive SameHead (n : Names) : Ty → Ty → Prop
  | base {t} : parts t = [] → (∀ l, t ≠ .typeParam l) → (∀ v, t ≠ .var v) → (∀ l k v a, t ≠ .adt l k v a) → SameHead n t t
  | integers {i j} : SameHead n (.intVar i) (.intVar j)
  | vector {t u} : SameHead n (.vector t) (.vector u)
  | range {t u} : SameHead n (.range t) (.range u)
  | ref {t u m} : SameHead n (.ref t m) (.ref u m)
  | tuple {ts us} : SameHead n (.tuple ts) (.tuple us)
  | callable {ps qs r s k a b c d e f} : SameHead n (.callable ps r k a b c) (.callable qs s k d e f)
  | param {a b x} : n.param a = some x → n.param b = some x → SameHead n (.typeParam a) (.typeParam b)
  | item {a b f g k l v w x y} : n.fq a = some f → n.fq b = some g → f.addr = g.addr → f.module = g.module → f.name = g.name →
      SameHead n (.adt a k v x) (.adt b l w y)

/-- The types are the same, and so are their parts. -/
inductive Same (n : Names) : Ty → Ty → Prop
  | mk {t u} : SameHead n t u → List.Forall₂ (Same n) (parts t) (parts u) → Same n t u

/-- The characters of names, numbers and `::`. -/
def WordChar (c : Char) : Prop := c ≠ ',' ∧ c ≠ '>' ∧ c ≠ ')' ∧ c ≠ '|' ∧ c ≠ '<' ∧ c ≠ ' ' ∧ c ≠ '(' ∧ c ≠ '&' ∧ c ≠ '\''

/-- A name: not empty, and without colons and the characters that types are made of. -/
def Ident (s : List Char) : Prop := s ≠ [] ∧ ∀ c ∈ s, WordChar c ∧ c ≠ ':'

/-- The words for the types of the language. -/
def builtin : List (List Char) :=
  ["bool".toList, "signer".toList, "address".toList, "num".toList, "bv".toList, "vector".toList, "range".toList, "integer".toList,
    "u8".toList, "u16".toList, "u32".toList, "u64".toList, "u128".toList, "u256".toList, "i8".toList, "i16".toList, "i32".toList,
    "i64".toList, "i128".toList, "i256".toList, "?integer".toList]

/-- All names are names, and no type parameter is called like a type of the language. -/
structure Names.Proper (n : Names) : Prop where
  fq : ∀ l f, n.fq l = some f → Ident f.addr ∧ Ident f.module ∧ Ident f.name
  param : ∀ l x, n.param l = some x → Ident x ∧ x ∉ builtin

mutual
/-- No type variables but those for integers, no schemas and no tuple of no types in it (which is written like `()`), and all structs, enums and type parameters have names. -/
def Plain (n : Names) : Ty → Prop
  | .vector t => Plain n t
  | .range t => Plain n t
  | .ref t _ => Plain n t
  | .adt l _ _ args => n.fq l ≠ none ∧ Plains n args
  | .callable ps r _ _ _ _ => Plains n ps ∧ Plain n r
  | .tuple ts => ts ≠ [] ∧ Plains n ts
  | .typeParam l => n.param l ≠ none
  | .var _ => False
  | .schema .. => False
  | _ => True
def Plains (n : Names) : List Ty → Prop
  | [] => True
  | t :: ts => Plain n t ∧ Plains n ts
end

end Verif.Types.Render
