import Verif.Lexer.Model

/-! Model of `crates/syntax/src/parse/token_set.rs`. -/

namespace Verif.TokenSet
open Verif.Syntax (SyntaxKind)

/-- `TokenSet` (token_set.rs 12-13). -/
abbrev TSet := BitVec 128

/-- `mask` (token_set.rs 102-104) in a build without overflow checks: the shift amount is taken modulo 128. -/
def mask (k : SyntaxKind) : TSet := 1#128 <<< (k.toNat % 128)

/-- `mask` in a build with overflow checks, and in constants: `none` is the panic. -/
def maskChecked (k : SyntaxKind) : Option TSet := if k.toNat < 128 then some (mask k) else none

/-- `TokenSet::EMPTY` (65). -/
def empty : TSet := 0#128

/-- `TokenSet::new` (67-75). -/
def new (kinds : List SyntaxKind) : TSet := kinds.foldl (fun res k => res ||| mask k) 0#128

/-- `TokenSet::union` (77-79), also `+` (27-32). -/
def union (a b : TSet) : TSet := a ||| b

/-- `TokenSet::sub` (81-83). -/
def sub (a b : TSet) : TSet := a &&& ~~~b

/-- `TokenSet::is_empty` (85-87). -/
def isEmpty (a : TSet) : Bool := a == 0#128

/-- `TokenSet::contains` (89-91). -/
def contains (a : TSet) (k : SyntaxKind) : Bool := a &&& mask k != 0#128

/-- `TokenSet::kinds` (93-98). The transmutation of a number to the enumeration is `ofNat`. -/
def kinds (a : TSet) : List SyntaxKind := ((List.range 128).map SyntaxKind.ofNat).filter (contains a)

/-- `set | kind` (34-39), `kind | kind` (41-46), `kind | set` (48-53). -/
def setOrKind (a : TSet) (k : SyntaxKind) : TSet := union a (new [k])
def kindOrKind (k k' : SyntaxKind) : TSet := new [k, k']
def kindOrSet (k : SyntaxKind) (a : TSet) : TSet := union (new [k]) a

end Verif.TokenSet
